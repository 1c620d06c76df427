/-
Lemmas about the verifiers on scalars as bytes.
-/
import Verif.Spec.ProofBytes
import Verif.Lemmas.PointBytes

namespace Verif
open Verif.Spec Verif.Sc Verif.Props

theorem mulBytes_isScalar {v w : Bytes} {x y : ZMod order} (hv : ((leVal v : ℕ) : ZMod order) = x)
    (hw : ((leVal w : ℕ) : ZMod order) = y) : IsScalar (mulBytes v w) (x * y) := by
  have := isScalar_mod (leVal v * leVal w)
  rwa [Nat.cast_mul, hv, hw] at this

section
variable {G : Type} {E : Env (ZMod order) G}

theorem length_subsetProdRecurse {F : Type} [Field F] [DecidableEq F] (basis : List F) (bl : Nat) :
    ∀ (n : Nat) (xs l : List F), xs.length = n → subsetProdRecurse xs basis bl = .ok l →
      l.length = xs.length := by
  intro n
  induction n using Nat.strong_induction_on with
  | _ n ih =>
    intro xs l hn e
    unfold subsetProdRecurse at e
    by_cases h1 : xs.length ≤ 1
    · rw [dif_pos h1, Res.ok.injEq] at e
      rw [e]
    · rw [dif_neg h1] at e
      have hh := log2roundUp_half_lt (n := xs.length) (by omega)
      have hp : 0 < 2 ^ (log2roundUp xs.length - 1) := Nat.two_pow_pos _
      dsimp only at e
      split at e
      · cases e
      · obtain ⟨b, -, e⟩ := Res.bind_eq_ok.1 e
        obtain ⟨hi, ehi, e⟩ := Res.bind_eq_ok.1 e
        obtain ⟨lo, elo, e⟩ := Res.bind_eq_ok.1 e
        rw [Res.ok.injEq] at e
        have h2 := ih (xs.length - 2 ^ (log2roundUp xs.length - 1)) (by omega) _ _ (by simp) ehi
        have h3 := ih (2 ^ (log2roundUp xs.length - 1)) (by omega) _ _ (by simp; omega) elo
        rw [← e, List.length_append, h2, h3, List.length_map, List.length_drop, List.length_take]
        omega

theorem subsetProdRecurseR_map (hs : ∀ x, IsScalar (E.scalarBytes x) x) (basis : List (ZMod order))
    (bl : Nat) : ∀ (n : Nat) (xs : List (ZMod order)), xs.length = n →
      subsetProdRecurseR E (xs.map E.scalarBytes) basis bl =
        (subsetProdRecurse xs basis bl >>= fun l => .ok (l.map E.scalarBytes)) := by
  intro n
  induction n using Nat.strong_induction_on with
  | _ n ih =>
    intro xs hn
    unfold subsetProdRecurseR subsetProdRecurse
    rw [List.length_map]
    by_cases h1 : xs.length ≤ 1
    · rw [dif_pos h1, dif_pos h1, Res.ok_bind]
    · rw [dif_neg h1, dif_neg h1]
      have hh := log2roundUp_half_lt (n := xs.length) (by omega)
      have hp : 0 < 2 ^ (log2roundUp xs.length - 1) := Nat.two_pow_pos _
      dsimp only
      split
      · rfl
      · cases rd basis (bl - log2roundUp xs.length) with
        | throw => rfl
        | ub => rfl
        | ok b =>
          simp only [Res.ok_bind]
          have hm : (List.drop (2 ^ (log2roundUp xs.length - 1)) (xs.map E.scalarBytes)).map
              (fun v => mulBytes v (E.scalarBytes b)) =
              ((xs.drop (2 ^ (log2roundUp xs.length - 1))).map (fun v => v * b)).map E.scalarBytes := by
            rw [← List.map_drop, List.map_map, List.map_map]
            congr 1
            funext v
            exact isScalar_inj (mulBytes_isScalar (isScalar_cast (hs v)) (isScalar_cast (hs b))) (hs _)
          rw [hm, ih (xs.length - 2 ^ (log2roundUp xs.length - 1)) (by omega) _ (by simp), ← List.map_take,
            ih (2 ^ (log2roundUp xs.length - 1)) (by omega) _ (by simp; omega)]
          cases subsetProdRecurse ((xs.drop (2 ^ (log2roundUp xs.length - 1))).map (fun v => v * b)) basis bl with
          | throw => rfl
          | ub => rfl
          | ok hi =>
            cases subsetProdRecurse (xs.take (2 ^ (log2roundUp xs.length - 1))) basis bl with
            | throw => rfl
            | ub => rfl
            | ok lo => simp only [Res.ok_bind, List.map_append]

/-- Only the first entry keeps its bytes. -/
theorem subsetProdRecurseR_rep (hs : ∀ x, IsScalar (E.scalarBytes x) x) (basis : List (ZMod order))
    (bl : Nat) : ∀ (n : Nat) (v : Bytes) (vec : List Bytes) (xs : List (ZMod order)), vec.length + 1 = n →
      List.Forall₂ (fun v x => ((leVal v : ℕ) : ZMod order) = x) (v :: vec) xs →
      subsetProdRecurseR E (v :: vec) basis bl =
        (subsetProdRecurse xs basis bl >>= fun l => .ok (v :: l.tail.map E.scalarBytes)) := by
  intro n
  induction n using Nat.strong_induction_on with
  | _ n ih =>
    intro v vec xs hn hx
    have hl : (v :: vec).length = xs.length := hx.length_eq
    unfold subsetProdRecurseR subsetProdRecurse
    rw [hl]
    by_cases h1 : xs.length ≤ 1
    · rw [dif_pos h1, dif_pos h1, Res.ok_bind]
      have hv : vec = [] := by
        rw [← hl] at h1
        simpa using h1
      subst hv
      cases hx with
      | cons h t => cases t; rfl
    · rw [dif_neg h1, dif_neg h1]
      have hh := log2roundUp_half_lt (n := xs.length) (by omega)
      have hp : 0 < 2 ^ (log2roundUp xs.length - 1) := Nat.two_pow_pos _
      dsimp only
      generalize hN : 2 ^ (log2roundUp xs.length - 1) = N at *
      simp only [List.length_cons] at hl
      split
      · rfl
      · cases rd basis (bl - log2roundUp xs.length) with
        | throw => rfl
        | ub => rfl
        | ok b =>
          simp only [Res.ok_bind]
          have hm : (List.drop N (v :: vec)).map (fun v => mulBytes v (E.scalarBytes b)) =
              ((xs.drop N).map (fun v => v * b)).map E.scalarBytes := by
            have := List.forall₂_drop N hx
            generalize List.drop N (v :: vec) = ys at this ⊢
            generalize xs.drop N = zs at this ⊢
            induction this with
            | nil => rfl
            | cons h _ ih =>
              simp only [List.map_cons]
              rw [ih]
              congr 1
              exact isScalar_inj (mulBytes_isScalar h (isScalar_cast (hs b))) (hs _)
          rw [hm, subsetProdRecurseR_map hs basis bl _ _ rfl]
          obtain ⟨M, rfl⟩ : ∃ M, N = M + 1 := ⟨N - 1, by omega⟩
          have ht := List.forall₂_take (M + 1) hx
          rw [List.take_succ_cons] at ht ⊢
          rw [ih (M + 1) (by omega) v (vec.take M) _ (by simp; omega) ht]
          cases subsetProdRecurse ((xs.drop (M + 1)).map (fun v => v * b)) basis bl with
          | throw => rfl
          | ub => rfl
          | ok hi =>
            cases hlo : subsetProdRecurse (xs.take (M + 1)) basis bl with
            | throw => rfl
            | ub => rfl
            | ok lo =>
              have := length_subsetProdRecurse basis bl _ _ _ rfl hlo
              rw [List.length_take] at this
              cases lo with
              | nil => simp at this; omega
              | cons l lo => simp only [Res.ok_bind, List.cons_append, List.tail_cons, List.map_append]

end

section
variable {G : Type} [DecidableEq G] [AddCommGroup G] [Module (ZMod order) G]
  {S : Sodium} {E : Env (ZMod order) G}

theorem isZeroBytes_iff {n : Bytes} (hn : n.length = 32) : isZeroBytes n = true ↔ number n = 0 := by
  have hz : leVal (List.replicate 32 (0 : UInt8)) = 0 := leVal_replicate 32
  unfold isZeroBytes eqBytes
  rw [beq_iff_eq, ← leVal_eq]
  constructor
  · intro h
    rw [← h, hz]
  · intro h
    exact leVal_inj _ _ (by simp [hn]) (by rw [hz, h])

theorem ptMul_stands (h : EncOk S E) (g : G) {n : Bytes} {x : ZMod order} (hn : StandsFor n x) :
    S.ptMul (E.pointBytes g) n = .ok (E.pointBytes (x • g)) := by
  obtain ⟨h1, h2, h3, h4⟩ := hn
  unfold Sodium.ptMul
  rw [h.sodium.identityPoint]
  simp only [isZeroBytes_iff h1]
  split
  · rename_i hc
    rcases hc with hc | hc
    · rw [h.sodium.inj hc, smul_zero]
    · have : x = 0 := by rw [← h3, hc, Nat.cast_zero]
      rw [this, zero_smul]
  · rename_i hc
    push Not at hc
    have hg : g ≠ 0 := fun e => hc.1 (by rw [e])
    have hx : x ≠ 0 := fun e => hc.2 (h4 e)
    rw [h.sodium.mul n g h1 h2, h3, if_pos ⟨hg, smul_ne_zero hx hg⟩]

theorem ptMul_raw (h : EncOk S E) (hT : IgnoresTopBit S) (g : G) {n t : Bytes} (hn : n.length = 32)
    (e : S.ptMul (E.pointBytes g) n = .ok t) :
    t = E.pointBytes (((number n % 2 ^ 255 : ℕ) : ZMod order) • g) := by
  unfold Sodium.ptMul at e
  rw [h.sodium.identityPoint] at e
  simp only [isZeroBytes_iff hn] at e
  split at e
  · rename_i hc
    rw [Res.ok.injEq] at e
    rw [← e]
    rcases hc with hc | hc
    · rw [h.sodium.inj hc, smul_zero]
    · rw [hc, Nat.zero_mod, Nat.cast_zero, zero_smul]
  · have hm : number (zzBytes 32 ((number n % 2 ^ 255 : ℕ) : ℤ)) = number n % 2 ^ 255 := by
      rw [← leVal_eq, zzBytes_val, Int.natAbs_natCast]
      apply Nat.mod_eq_of_lt
      exact lt_trans (Nat.mod_lt _ (by norm_num)) (by norm_num)
    rw [hT n _ _ hn (zzBytes_length _ _) (by rw [hm, Nat.mod_mod]),
      h.sodium.mul _ g (zzBytes_length _ _) (by rw [hm]; exact Nat.mod_lt _ (by norm_num)), hm] at e
    split at e
    · rename_i r hr
      rw [Res.ok.injEq] at e
      split at hr
      · rw [← e]
        exact (Option.some.inj hr).symm
      · cases hr
    · cases e

theorem ptMul_zero_ne_ok (h : EncOk S E) (hT : IgnoresTopBit S) {g : G} (hg : g ≠ 0) {n : Bytes}
    (hn : n.length = 32) (h0 : number n ≠ 0) (h1 : ((number n % 2 ^ 255 : ℕ) : ZMod order) = 0) (t : Bytes) :
    S.ptMul (E.pointBytes g) n ≠ .ok t := by
  intro e
  unfold Sodium.ptMul at e
  rw [h.sodium.identityPoint] at e
  simp only [isZeroBytes_iff hn] at e
  rw [if_neg (by rintro (hc | hc); exacts [hg (h.sodium.inj hc), h0 hc])] at e
  have hm : number (zzBytes 32 ((number n % 2 ^ 255 : ℕ) : ℤ)) = number n % 2 ^ 255 := by
    rw [← leVal_eq, zzBytes_val, Int.natAbs_natCast]
    apply Nat.mod_eq_of_lt
    exact lt_trans (Nat.mod_lt _ (by norm_num)) (by norm_num)
  rw [hT n _ _ hn (zzBytes_length _ _) (by rw [hm, Nat.mod_mod]),
    h.sodium.mul _ g (zzBytes_length _ _) (by rw [hm]; exact Nat.mod_lt _ (by norm_num)), hm, h1,
    if_neg (by simp)] at e
  cases e

theorem forall₂_scalarBytes (hs : ∀ x, IsScalar (E.scalarBytes x) x) (xs : List (ZMod order)) :
    List.Forall₂ IsScalar (xs.map E.scalarBytes) xs := by
  induction xs with
  | nil => exact List.Forall₂.nil
  | cons x xs ih => exact List.Forall₂.cons (hs x) ih

theorem ptAdd_identity (h : EncOk S E) (t : Bytes) : S.ptAdd (E.pointBytes 0) t = .ok t := by
  unfold Sodium.ptAdd
  rw [h.sodium.identityPoint]
  split
  · rename_i hc; rw [hc]
  · rw [if_pos rfl]

theorem sumMul_first (h : EncOk S E) (v : Bytes) (l : List (ZMod order)) (g : G) (gs : List G) :
    S.sumMul (v :: l.map E.scalarBytes) ((g :: gs).map E.pointBytes) S.identityPoint =
      (S.ptMul (E.pointBytes g) v >>= fun t => S.sumMul (l.map E.scalarBytes) (gs.map E.pointBytes) t) := by
  rw [List.map_cons, Sodium.sumMul, h.sodium.identityPoint]
  congr 1
  funext t
  rw [ptAdd_identity h, Res.ok_bind]

/-- The powers: the first one in the given bytes, the others reduced. -/
theorem expR_core (hs : ∀ x, IsScalar (E.scalarBytes x) x) (g : G) (gs : List G) (xs : List (ZMod order))
    (a : Bytes) {n : Nat} (hn : n = gs.length + 1) (h1 : n ≤ 2 ^ 63) (hx : log2roundUp n = xs.length) :
    ∃ l : List (ZMod order), l.length = gs.length ∧
      subsetProdRecurseR E (List.replicate n a) xs (log2roundUp n) = .ok (a :: l.map E.scalarBytes) ∧
      ((number a : ℕ) : ZMod order) • foldedSum xs (g :: gs) =
        ((number a : ℕ) : ZMod order) • g + mexp l gs := by
  have hle := (log2roundUp_le h1).2
  have he := expSubsetProduct_none (g :: gs) xs ((number a : ℕ) : ZMod order) (n := n) (by simp [hn]) h1 hx
  have hsp := subsetProduct_eq n xs (log2roundUp n) ((number a : ℕ) : ZMod order) (by omega) h1 hle
  rw [expSubsetProduct, hsp, Res.ok_bind] at he
  unfold subsetProduct at hsp
  obtain ⟨t, ht⟩ := spL_ne_nil (xs.take (log2roundUp n))
  have hlen : (1 :: t).length = 2 ^ (xs.take (log2roundUp n)).length := by rw [← ht, length_spL]
  rw [List.length_take, ← hx, min_self] at hlen
  rw [ht, hn, List.take_succ_cons, List.map_cons, mul_one] at hsp he
  rw [← hn] at hsp he
  refine ⟨(t.take gs.length).map (fun z => ((number a : ℕ) : ZMod order) * z), ?_, ?_, ?_⟩
  · rw [List.length_map, List.length_take]
    simp only [List.length_cons] at hlen
    omega
  · have hrep : List.replicate n a = a :: List.replicate gs.length a := by rw [hn, List.replicate_succ]
    rw [hrep, subsetProdRecurseR_rep hs xs _ n a _ (List.replicate n ((number a : ℕ) : ZMod order))
      (by simp [hn]), hsp, Res.ok_bind, List.tail_cons]
    rw [← hrep]
    generalize n = m
    induction m with
    | zero => exact List.Forall₂.nil
    | succ m ih => exact List.Forall₂.cons (by rw [leVal_eq]) ih
  · dsimp only at he
    rw [multiExp_ok (by simp [hn]) (by
      simp only [List.length_cons, List.length_map, List.length_take] at hlen ⊢; omega),
      Res.ok.injEq] at he
    rw [← he, hn, List.take_succ_cons, List.take_succ_cons, mexp_cons, List.take_length,
      List.take_of_length_le (by simp)]

omit [DecidableEq G] [AddCommGroup G] [Module (ZMod order) G] in
theorem addRaw_canon (hs : ∀ x, IsScalar (E.scalarBytes x) x) (x y : ZMod order) :
    addRaw (E.scalarBytes x) (E.scalarBytes y) = E.scalarBytes (x + y) := by
  have h1 := isScalar_lt (hs x)
  have h2 := isScalar_lt (hs y)
  rw [← leVal_eq] at h1 h2
  unfold addRaw
  rw [Nat.mod_eq_of_lt (lt_of_lt_of_le (Nat.add_lt_add h1 h2) (by norm_num))]
  have := isScalar_mod (leVal (E.scalarBytes x) + leVal (E.scalarBytes y))
  rw [Nat.cast_add, isScalar_cast (hs x), isScalar_cast (hs y)] at this
  exact isScalar_inj this (hs _)

omit [DecidableEq G] [AddCommGroup G] [Module (ZMod order) G] in
theorem addRaw_first (hs : ∀ x, IsScalar (E.scalarBytes x) x) {a : Bytes} (ha : a.length = 32)
    (o : ZMod order) (off : List (ZMod order)) :
    IsScalar (addRaw a (E.scalarBytes o)) (((number a : ℕ) : ZMod order) + o + firstErr a (some (o :: off))) := by
  have h1 := leVal_lt a
  rw [ha] at h1
  have h2 := isScalar_lt (hs o)
  have h4 := (hs o).2
  rw [← leVal_eq] at h2 h4
  have h3 := isScalar_mod ((leVal a + leVal (E.scalarBytes o)) % 2 ^ 256)
  have hM : (256 : ℕ) ^ 32 = 2 ^ 256 := by norm_num
  have hH : (2 : ℕ) ^ 255 + 2 ^ 255 = 2 ^ 256 := by norm_num
  rw [hM] at h1
  dsimp only [firstErr]
  rw [List.headD_cons, ← leVal_eq a, ← h4]
  by_cases hc : leVal a + leVal (E.scalarBytes o) < 2 ^ 256
  · rw [Nat.mod_eq_of_lt hc, Nat.cast_add, isScalar_cast (hs o)] at h3
    unfold addRaw
    rw [if_neg (not_le.2 hc), add_zero, Nat.mod_eq_of_lt hc]
    exact h3
  · push Not at hc
    have hm : ((leVal a + leVal (E.scalarBytes o)) % 2 ^ 256) =
        leVal a + leVal (E.scalarBytes o) - 2 ^ 256 := by
      rw [Nat.mod_eq_sub_mod hc]
      apply Nat.mod_eq_of_lt
      generalize (2 : ℕ) ^ 256 = M at *
      generalize (2 : ℕ) ^ 255 = H at *
      omega
    unfold addRaw
    rw [hm] at h3 ⊢
    rw [Nat.cast_sub hc, Nat.cast_add, isScalar_cast (hs o)] at h3
    rw [if_pos hc, show ((leVal a : ℕ) : ZMod order) + o + -2 ^ 256 =
      ((leVal a : ℕ) : ZMod order) + o - ((2 ^ 256 : ℕ) : ZMod order) by push_cast; ring]
    exact h3

theorem zipWith_addRaw (hs : ∀ x, IsScalar (E.scalarBytes x) x) (l o : List (ZMod order)) :
    List.zipWith addRaw (l.map E.scalarBytes) (o.map E.scalarBytes) =
      (List.zipWith (· + ·) l o).map E.scalarBytes := by
  rw [List.zipWith_map, List.map_zipWith]
  congr 1
  funext x y
  exact addRaw_canon hs x y

omit [DecidableEq G] in
theorem mexp_zipWith_add (l o : List (ZMod order)) (gs : List G) (h : l.length = o.length) :
    mexp (List.zipWith (· + ·) l o) gs = mexp l gs + mexp o gs := by
  induction l generalizing o gs with
  | nil => cases o <;> simp at h ⊢
  | cons x l ih =>
    cases o with
    | nil => simp at h
    | cons y o =>
      cases gs with
      | nil => simp
      | cons g gs =>
        simp only [List.zipWith_cons_cons, mexp_cons]
        rw [ih o gs (by simpa using h), add_smul]
        exact add_add_add_comm _ _ _ _

theorem expR_some (h : EncOk S E) (g : G) (gs : List G) (xs : List (ZMod order)) {a : Bytes}
    (ha : a.length = 32) (off : List (ZMod order)) {n : Nat} (hn : n = gs.length + 1) (h1 : n ≤ 2 ^ 63)
    (hx : log2roundUp n = xs.length) (ho : off.length = n) :
    expSubsetProductR E S ((g :: gs).map E.pointBytes) n xs a (some off) =
      .ok (E.pointBytes (((number a : ℕ) : ZMod order) • foldedSum xs (g :: gs) + mexp off (g :: gs) +
        firstErr a (some off) • g)) := by
  obtain ⟨l, hl, hsp, hfs⟩ := expR_core h.scalar g gs xs a hn h1 hx
  obtain ⟨o, os, rfl⟩ : ∃ o os, off = o :: os := by
    cases off with
    | nil => simp at ho; omega
    | cons o os => exact ⟨o, os, rfl⟩
  have hse := addRaw_first h.scalar ha o os
  generalize firstErr a (some (o :: os)) = e at hse ⊢
  unfold expSubsetProductR
  dsimp only
  rw [hsp, Res.ok_bind, rdN_ok (by omega), Res.ok_bind, rdN_ok (by simp; omega), Res.ok_bind,
    List.take_of_length_le (by omega), List.take_of_length_le (by simp; omega), List.map_cons,
    List.zipWith_cons_cons, zipWith_addRaw h.scalar, h.sodium.identityPoint,
    C62_multi_exp h.sodium (g :: gs) _ ((((number a : ℕ) : ZMod order) + o + e) ::
      List.zipWith (· + ·) l os) (List.Forall₂.cons hse (forall₂_scalarBytes h.scalar _))]
  congr 2
  rw [zero_add, mexp_cons, mexp_cons, mexp_zipWith_add _ _ _ (by simp at ho; omega), hfs, add_smul, add_smul]
  module

theorem expR_none (h : EncOk S E) (hT : IgnoresTopBit S) (g : G) (gs : List G) (xs : List (ZMod order))
    {a t : Bytes} (ha : a.length = 32) {n : Nat} (hn : n = gs.length + 1) (h1 : n ≤ 2 ^ 63)
    (hx : log2roundUp n = xs.length)
    (e : expSubsetProductR E S ((g :: gs).map E.pointBytes) n xs a none = .ok t) :
    t = E.pointBytes (((number a : ℕ) : ZMod order) • foldedSum xs (g :: gs) + topErr a • g) := by
  obtain ⟨l, hl, hsp, hfs⟩ := expR_core h.scalar g gs xs a hn h1 hx
  unfold expSubsetProductR at e
  dsimp only at e
  rw [hsp, Res.ok_bind, rdN_ok (by simp; omega), Res.ok_bind, List.take_of_length_le (by simp; omega),
    sumMul_first h] at e
  obtain ⟨u, eu, e⟩ := Res.bind_eq_ok.1 e
  rw [ptMul_raw h hT g ha eu, C62_multi_exp h.sodium gs _ l (forall₂_scalarBytes h.scalar _),
    Res.ok.injEq] at e
  have he : topErr a = ((number a % 2 ^ 255 : ℕ) : ZMod order) - ((number a : ℕ) : ZMod order) := by
    unfold topErr
    by_cases hlt : number a < 2 ^ 255
    · rw [if_neg (not_le.2 hlt), Nat.mod_eq_of_lt hlt, sub_self]
    · have hge := not_lt.1 hlt
      rw [if_pos hge]
      have hlt := leVal_lt a
      rw [ha, leVal_eq] at hlt
      have hm : number a % 2 ^ 255 = number a - 2 ^ 255 := by
        rw [Nat.mod_eq_sub_mod hge]
        apply Nat.mod_eq_of_lt
        have hH : (2 : ℕ) ^ 255 + 2 ^ 255 = 256 ^ 32 := by norm_num
        generalize (256 : ℕ) ^ 32 = M at *
        generalize (2 : ℕ) ^ 255 = H at *
        omega
      rw [hm, Nat.cast_sub hge]
      push_cast
      ring
  rw [← e, hfs, he, sub_smul]
  congr 1
  module

theorem expR_ok (h : EncOk S E) (hT : IgnoresTopBit S) (gs : List G) (xs : List (ZMod order))
    {a t : Bytes} (ha : a.length = 32) (off : Option (List (ZMod order))) {n : Nat} (hn1 : 1 ≤ n)
    (hn : gs.length = n) (h1 : n ≤ 2 ^ 63) (hx : log2roundUp n = xs.length)
    (ho : ∀ o, off = some o → o.length = n)
    (e : expSubsetProductR E S (gs.map E.pointBytes) n xs a off = .ok t) :
    t = E.pointBytes (((number a : ℕ) : ZMod order) • foldedSum xs gs + mexp (offList off) gs +
      firstErr a off • gs.headD 0) := by
  cases gs with
  | nil => simp at hn; omega
  | cons g gs =>
    cases off with
    | none =>
      rw [expR_none h hT g gs xs ha (by simpa using hn.symm) h1 hx e]
      simp [offList, firstErr]
    | some o =>
      rw [expR_some h g gs xs ha o (by simpa using hn.symm) h1 hx (ho o rfl), Res.ok.injEq] at e
      rw [← e]
      simp [offList]

omit [DecidableEq G] [AddCommGroup G] [Module (ZMod order) G] in
theorem firstErr_low {a : Bytes} (ha : number a < 2 ^ 255) (off : Option (List (ZMod order))) :
    firstErr a off = 0 := by
  cases off with
  | none => exact if_neg (not_le.2 ha)
  | some o =>
    have h1 : order ≤ 2 ^ 255 := by decide +kernel
    have h2 := ZMod.val_lt (o.headD 0)
    have hH : (2 : ℕ) ^ 255 + 2 ^ 255 = 2 ^ 256 := by norm_num
    refine if_neg (not_le.2 ?_)
    generalize (2 : ℕ) ^ 256 = M at *
    generalize (2 : ℕ) ^ 255 = H at *
    omega

theorem expR_stands (h : EncOk S E) (gs : List G) (xs : List (ZMod order))
    {a : Bytes} {x : ZMod order} (ha : StandsFor a x) (off : Option (List (ZMod order))) {n : Nat} (hn1 : 1 ≤ n)
    (hn : gs.length = n) (h1 : n ≤ 2 ^ 63) (hx : log2roundUp n = xs.length)
    (ho : ∀ o, off = some o → o.length = n) :
    expSubsetProductR E S (gs.map E.pointBytes) n xs a off =
      .ok (E.pointBytes (x • foldedSum xs gs + mexp (offList off) gs)) := by
  cases gs with
  | nil => simp at hn; omega
  | cons g gs =>
    cases off with
    | none =>
      obtain ⟨l, hl, hsp, hfs⟩ := expR_core h.scalar g gs xs a (by simpa using hn.symm) h1 hx
      rw [ha.2.2.1] at hfs
      unfold expSubsetProductR
      dsimp only
      simp only [List.length_cons] at hn
      rw [hsp, Res.ok_bind, rdN_ok (by simp; omega), Res.ok_bind, List.take_of_length_le (by simp; omega),
        sumMul_first h, ptMul_stands h g ha, Res.ok_bind,
        C62_multi_exp h.sodium gs _ l (forall₂_scalarBytes h.scalar _), hfs]
      simp [offList]
    | some o =>
      rw [expR_some h g gs xs ha.1 o (by simpa using hn.symm) h1 hx (ho o rfl), firstErr_low ha.2.1, ha.2.2.1]
      simp [offList]

theorem Res.bind_congr {α β : Type} {r : Res α} {f g : α → Res β} (h : ∀ v, r = .ok v → f v = g v) :
    (r >>= f) = (r >>= g) := by
  cases r with
  | ok v => exact h v rfl
  | throw => rfl
  | ub => rfl

theorem stands_mul (hs : ∀ x, IsScalar (E.scalarBytes x) x) (a : Bytes) (b : ZMod order) :
    mulBytes a (E.scalarBytes b) = E.scalarBytes (((number a : ℕ) : ZMod order) * b) :=
  isScalar_inj (mulBytes_isScalar (by rw [leVal_eq]) (isScalar_cast (hs b))) (hs _)

theorem raw_mul (hs : ∀ x, IsScalar (E.scalarBytes x) x) (a b : Bytes) :
    mulBytes a b = E.scalarBytes (((number a : ℕ) : ZMod order) * ((number b : ℕ) : ZMod order)) :=
  isScalar_inj (mulBytes_isScalar (by rw [leVal_eq]) (by rw [leVal_eq])) (hs _)

theorem expB_val (h : EncOk S E) (gs : List G) (xs : List (ZMod order)) (a : ZMod order)
    (off : Option (List (ZMod order))) {n : Nat} (hn : gs.length = n) (h1 : n ≤ 2 ^ 63)
    (hx : log2roundUp n = xs.length) (ho : ∀ o, off = some o → o.length = n) :
    expSubsetProductB E S (gs.map E.pointBytes) n xs a off =
      .ok (E.pointBytes (a • foldedSum xs gs + mexp (offList off) gs)) := by
  rw [expSubsetProductB_map h]
  cases off with
  | none => rw [expSubsetProduct_none gs xs a hn.symm h1 hx, Res.ok_bind]; simp [offList]
  | some o =>
    rw [expSubsetProduct_some gs xs a o hn.symm h1 hx (by have := ho o rfl; omega), Res.ok_bind]
    simp [offList]

theorem verifyLinearR_stands (h : EncOk S E) (pf : LinPfR) {α ρ : ZMod order} (ha : StandsFor pf.a α)
    (hr : StandsFor pf.r ρ) (bs : List (ZMod order)) (gs : List G) (n : Nat) (eq : ZMod order) (st : E.St)
    (off : Option (List (ZMod order))) (hn1 : 1 ≤ n) (hn2 : n ≤ 2 ^ 63) (hb : bs.length = n)
    (hg : gs.length = n) (ho : ∀ o, off = some o → o.length = n) :
    verifyLinearR E S pf bs (gs.map E.pointBytes) n eq st off =
      verifyLinearB E S (linWith pf α ρ) bs (gs.map E.pointBytes) n eq st off := by
  simp only [verifyLinearR, verifyLinearB, linWith]
  refine Res.bind_congr fun f _ => Res.bind_congr fun C1 _ => ?_
  by_cases hlen : pf.Ls.length ≠ log2roundUp n ∨ pf.Rs.length ≠ log2roundUp n
  · rw [if_pos hlen, if_pos hlen]
  rw [if_neg hlen, if_neg hlen]
  push Not at hlen
  rw [verifyLinLoopB_eq E pf.Ls pf.Rs (log2roundUp n) n _ 0 bs _ (level_log hn1 hn2) hb (by omega)
    (by omega)]
  simp only [List.drop_zero]
  obtain ⟨c, hc⟩ : ∃ c, c = foldChallengesB E n (E.newGenerator (E.commit st lblC pf.C) lblF).2 pf.Ls pf.Rs :=
    ⟨_, rfl⟩
  simp only [← hc]
  have hcl : c.1.length = log2roundUp n := by rw [hc]; simp; omega
  by_cases h0 : (0 : ZMod order) ∈ c.1
  · rw [if_pos h0]; rfl
  rw [if_neg h0, Res.ok_bind, Res.ok_bind]
  dsimp only
  refine Res.bind_congr fun m1 _ => Res.bind_congr fun m2 _ => Res.bind_congr fun m _ =>
    Res.bind_congr fun C2 _ => Res.bind_congr fun xi _ => ?_
  refine Res.bind_congr fun off' hoff => ?_
  have ho' : ∀ o, off' = some o → o.length = n := by
    intro o hoo
    cases off with
    | none => rw [Res.ok.injEq] at hoff; rw [← hoff] at hoo; cases hoo
    | some w =>
      have := ho w rfl
      dsimp only at hoff
      rw [rdN_ok (by omega), Res.ok_bind, Res.ok.injEq] at hoff
      rw [← hoff, Option.some.injEq] at hoo
      rw [← hoo]
      simp [this]
  rw [expR_stands h gs c.1 ha off' hn1 hg hn2 hcl.symm ho', expB_val h gs c.1 α off' hg hn2 hcl.symm ho',
    Res.ok_bind, Res.ok_bind]
  refine Res.bind_congr fun b0 _ => Res.bind_congr fun xC _ => Res.bind_congr fun lhs _ => ?_
  rw [h.sodium.basePoint, ptMul_stands h _ hr, h.mul, stands_mul h.scalar, ha.2.2.1]

/-- The offsets with something added to the first one. -/
def offPlus (n : Nat) (off : Option (List (ZMod order))) (c : ZMod order) : List (ZMod order) :=
  match off with
  | none => c :: List.replicate (n - 1) 0
  | some [] => []
  | some (o :: os) => (o + c) :: os

theorem length_offPlus {n : Nat} (hn : 1 ≤ n) (off : Option (List (ZMod order))) (c : ZMod order)
    (ho : ∀ o, off = some o → o.length = n) : (offPlus n off c).length = n := by
  cases off with
  | none => simp [offPlus]; omega
  | some o =>
    have := ho o rfl
    cases o with
    | nil => simpa [offPlus] using this
    | cons => simpa [offPlus] using this

omit [DecidableEq G] in
theorem mexp_replicate_zero (k : Nat) (gs : List G) : mexp (List.replicate k (0 : ZMod order)) gs = 0 := by
  induction k generalizing gs with
  | zero => simp
  | succ k ih => cases gs <;> simp [List.replicate_succ, ih]

omit [DecidableEq G] in
theorem mexp_offPlus {n : Nat} (hn : 1 ≤ n) (off : Option (List (ZMod order))) (c : ZMod order)
    (ho : ∀ o, off = some o → o.length = n) (gs : List G) :
    mexp (offPlus n off c) gs = mexp (offList off) gs + c • gs.headD 0 := by
  cases gs with
  | nil => simp
  | cons g gs =>
    cases off with
    | none => simp [offPlus, offList, mexp_replicate_zero]
    | some o =>
      cases o with
      | nil => have := ho [] rfl; simp at this; omega
      | cons o os =>
        simp only [offPlus, offList, mexp_cons, Option.getD_some, List.headD_cons]
        module

theorem verifyLinearR_ok (h : EncOk S E) (hT : IgnoresTopBit S) (pf : LinPfR) (ha : pf.a.length = 32)
    (hr : pf.r.length = 32) (bs : List (ZMod order)) (gs : List G) (n : Nat) (eq : ZMod order) (st : E.St)
    (off : Option (List (ZMod order))) (v : Bool × E.St) (hn1 : 1 ≤ n) (hn2 : n ≤ 2 ^ 63) (hb : bs.length = n)
    (hg : gs.length = n) (ho : ∀ o, off = some o → o.length = n)
    (acc : verifyLinearR E S pf bs (gs.map E.pointBytes) n eq st off = .ok v) :
    ∃ e, e = firstErr pf.a (off.map fun o => o.map (· * (deriveLinB E (linWith pf ((number pf.a : ℕ) : ZMod order)
        ((number pf.r % 2 ^ 255 : ℕ) : ZMod order)) n st).x)) ∧
      (deriveLinB E (linWith pf ((number pf.a : ℕ) : ZMod order)
        ((number pf.r % 2 ^ 255 : ℕ) : ZMod order)) n st).x ≠ 0 ∧
      verifyLinearB E S (linWith pf ((number pf.a : ℕ) : ZMod order)
        ((number pf.r % 2 ^ 255 : ℕ) : ZMod order)) bs (gs.map E.pointBytes) n eq st
        (some (offPlus n off (e / (deriveLinB E (linWith pf ((number pf.a : ℕ) : ZMod order)
        ((number pf.r % 2 ^ 255 : ℕ) : ZMod order)) n st).x))) = .ok v := by
  simp only [verifyLinearR, Env.newGenerator, lblC, lblF, lblS, lblx, Env.newChallenge] at acc
  simp only [verifyLinearB, linWith, deriveLinB, Env.newGenerator, lblC, lblF, lblS, lblx, Env.newChallenge]
  obtain ⟨f, hf⟩ : ∃ f, f = E.challenge (E.commit st [67] pf.C) [70] 32 := ⟨_, rfl⟩
  simp only [← hf] at acc ⊢
  obtain ⟨eF, heF, acc⟩ := Res.bind_eq_ok.1 acc
  obtain ⟨C1, hC1, acc⟩ := Res.bind_eq_ok.1 acc
  split at acc
  · cases acc
  rename_i hlen
  simp only [heF, hC1, Res.ok_bind, if_neg hlen]
  push Not at hlen
  rw [verifyLinLoopB_eq E pf.Ls pf.Rs (log2roundUp n) n _ 0 bs _ (level_log hn1 hn2) hb (by omega)
    (by omega)] at acc ⊢
  simp only [List.drop_zero] at acc ⊢
  obtain ⟨c, hc⟩ : ∃ c, c = foldChallengesB E n f.2 pf.Ls pf.Rs := ⟨_, rfl⟩
  simp only [← hc] at acc ⊢
  have hcl : c.1.length = log2roundUp n := by rw [hc]; simp; omega
  by_cases h0 : (0 : ZMod order) ∈ c.1
  · rw [if_pos h0] at acc
    cases acc
  rw [if_neg h0, Res.ok_bind] at acc
  simp only [if_neg h0, Res.ok_bind]
  dsimp only at acc
  obtain ⟨m1, e1, acc⟩ := Res.bind_eq_ok.1 acc
  obtain ⟨m2, e2, acc⟩ := Res.bind_eq_ok.1 acc
  obtain ⟨m, em, acc⟩ := Res.bind_eq_ok.1 acc
  obtain ⟨C2, eC2, acc⟩ := Res.bind_eq_ok.1 acc
  simp only [e1, e2, em, eC2, Res.ok_bind]
  obtain ⟨ch, hch⟩ : ∃ ch, ch = E.challenge (E.commit c.2 [83] pf.S) [120] 64 := ⟨_, rfl⟩
  simp only [← hch, inverseOf] at acc ⊢
  generalize E.scalarReduce ch.1 = x at acc ⊢
  by_cases hx : x = 0
  · rw [if_pos hx] at acc
    cases acc
  rw [if_neg hx, Res.ok_bind] at acc
  simp only [if_neg hx, Res.ok_bind]
  obtain ⟨off', eoff, acc⟩ := Res.bind_eq_ok.1 acc
  obtain ⟨tmp, etmp, acc⟩ := Res.bind_eq_ok.1 acc
  obtain ⟨b0, eb0, acc⟩ := Res.bind_eq_ok.1 acc
  obtain ⟨xC, exC, acc⟩ := Res.bind_eq_ok.1 acc
  obtain ⟨lhs, elhs, acc⟩ := Res.bind_eq_ok.1 acc
  obtain ⟨rB, erB, acc⟩ := Res.bind_eq_ok.1 acc
  have hoff : (∀ o, off' = some o → o.length = n) ∧ off' = off.map (fun o => o.map (· * x)) ∧
      mexp (offList off') gs = x • mexp (offList off) gs := by
    cases off with
    | none =>
      rw [Res.ok.injEq] at eoff
      rw [← eoff]
      refine ⟨by simp, by simp, by simp [offList]⟩
    | some w =>
      have hw := ho w rfl
      dsimp only at eoff
      rw [rdN_ok (by omega), Res.ok_bind, Res.ok.injEq] at eoff
      rw [← eoff]
      refine ⟨fun o hoo => ?_, by rw [Option.map_some, List.take_of_length_le (by omega)], ?_⟩
      · rw [Option.some.injEq] at hoo
        rw [← hoo]
        simp [hw]
      · simp only [offList, Option.getD_some]
        rw [mexp_smul_left, List.take_of_length_le (by omega)]
  have htmp := expR_ok h hT gs c.1 ha off' hn1 hg hn2 hcl.symm hoff.1 etmp
  rw [← hoff.2.1]
  refine ⟨_, rfl, hx, ?_⟩
  generalize firstErr pf.a off' = e at htmp ⊢
  have hl := length_offPlus hn1 off (e / x) ho
  rw [rdN_ok (by omega), Res.ok_bind, Res.ok_bind,
    expB_val h gs c.1 _ _ hg hn2 hcl.symm (by rintro o ⟨⟩; simp [hl]), Res.ok_bind, eb0, Res.ok_bind, exC,
    Res.ok_bind, elhs, Res.ok_bind]
  rw [h.sodium.basePoint] at erB ⊢
  rw [ptMul_raw h hT _ hr erB, stands_mul h.scalar, htmp, hoff.2.2] at acc
  rw [h.mul, Res.ok_bind]
  simp only [offList, Option.getD_some]
  rw [mexp_smul_left, List.take_of_length_le (by omega), mexp_offPlus hn1 off _ ho, smul_add, smul_smul,
    mul_div_cancel₀ _ hx, ← add_assoc]
  exact acc

omit [DecidableEq G] [AddCommGroup G] [Module (ZMod order) G] in
theorem subsetProdRecurseR_ok (basis : List (ZMod order)) (bl : Nat) (hb : bl ≤ basis.length) :
    ∀ (n : Nat) (vec : List Bytes), vec.length = n → n ≤ 2 ^ 63 → n ≤ 2 ^ bl →
      ∃ l, subsetProdRecurseR E vec basis bl = .ok l := by
  intro n
  induction n using Nat.strong_induction_on with
  | _ n ih =>
    intro vec hn h63 hk
    unfold subsetProdRecurseR
    by_cases h1 : vec.length ≤ 1
    · rw [dif_pos h1]
      exact ⟨_, rfl⟩
    · rw [dif_neg h1]
      have hh := log2roundUp_half_lt (n := vec.length) (by omega)
      have hp : 0 < 2 ^ (log2roundUp vec.length - 1) := Nat.two_pow_pos _
      have hlk : log2roundUp vec.length ≤ bl := (log2roundUp_le_iff (by omega)).mpr (by omega)
      dsimp only
      rw [if_neg (by omega), rd_ok (by omega), Res.ok_bind]
      obtain ⟨hi, ehi⟩ := ih (vec.length - 2 ^ (log2roundUp vec.length - 1)) (by omega)
        ((vec.drop (2 ^ (log2roundUp vec.length - 1))).map (fun v => mulBytes v
          (E.scalarBytes (basis[bl - log2roundUp vec.length]'(by omega))))) (by simp) (by omega) (by omega)
      obtain ⟨lo, elo⟩ := ih (2 ^ (log2roundUp vec.length - 1)) (by omega)
        (vec.take (2 ^ (log2roundUp vec.length - 1))) (by simp; omega) (by omega) (by omega)
      rw [ehi, elo]
      exact ⟨_, rfl⟩

omit [DecidableEq G] [AddCommGroup G] [Module (ZMod order) G] in
theorem expR_ne_ub {ps : List Bytes} {n : Nat} {xs : List (ZMod order)} {a : Bytes}
    {off : Option (List (ZMod order))} (hn2 : n ≤ 2 ^ 63) (hps : n ≤ ps.length)
    (hx : log2roundUp n = xs.length) (ho : ∀ o, off = some o → n ≤ o.length) :
    expSubsetProductR E S ps n xs a off ≠ .ub := by
  unfold expSubsetProductR
  obtain ⟨l, hl⟩ := subsetProdRecurseR_ok (E := E) xs (log2roundUp n) (by omega) n (List.replicate n a) (by simp)
    hn2 (log2roundUp_le hn2).2
  dsimp only
  rw [hl, Res.ok_bind]
  cases off with
  | none =>
    dsimp only
    rw [rdN_ok hps, Res.ok_bind]
    exact sumMul_ne_ub _ _ _
  | some o =>
    dsimp only
    rw [rdN_ok (ho o rfl), Res.ok_bind, rdN_ok hps, Res.ok_bind]
    exact sumMul_ne_ub _ _ _

theorem verifyLinearR_ne_ub (pf : LinPfR) (bs : List (ZMod order)) (gs : List Bytes)
    (n : Nat) (eq : ZMod order) (st : E.St) (off : Option (List (ZMod order)))
    (hn1 : 1 ≤ n) (hn2 : n ≤ 2 ^ 63) (hb : bs.length = n) (hg : n ≤ gs.length)
    (ho : ∀ o, off = some o → n ≤ o.length) :
    verifyLinearR E S pf bs gs n eq st off ≠ .ub := by
  unfold verifyLinearR
  dsimp only
  refine Res.bind_ne_ub (ptMul_ne_ub _ _) fun f _ => Res.bind_ne_ub (ptAdd_ne_ub _ _) fun C _ => ?_
  split
  · simp
  rename_i hlen
  push Not at hlen
  obtain ⟨hL, hR⟩ := hlen
  rw [verifyLinLoopB_eq E pf.Ls pf.Rs (log2roundUp n) n _ 0 bs _ (level_log hn1 hn2) hb (by omega)
    (by omega)]
  simp only [List.drop_zero]
  generalize hc : foldChallengesB E n _ pf.Ls pf.Rs = c
  have hcl : c.1.length = log2roundUp n := by rw [← hc]; simp; omega
  split
  · intro hu; cases hu
  rw [Res.ok_bind]
  dsimp only
  refine Res.bind_ne_ub (multiExpB_ne_ub le_rfl (by omega)) fun m1 _ => ?_
  refine Res.bind_ne_ub (multiExpB_ne_ub le_rfl (by simp; omega)) fun m2 _ => ?_
  refine Res.bind_ne_ub (ptAdd_ne_ub _ _) fun m _ => Res.bind_ne_ub (ptAdd_ne_ub _ _) fun C2 _ => ?_
  refine Res.bind_ne_ub (by unfold inverseOf; split <;> simp) fun xi _ => ?_
  have hle := (log2roundUp_le hn2).2
  refine Res.bind_ne_ub ?_ fun off' hoff => ?_
  · cases off with
    | none => simp
    | some w => dsimp only; rw [rdN_ok (ho w rfl)]; simp
  · refine Res.bind_ne_ub (expR_ne_ub hn2 hg hcl.symm ?_) fun tmp _ => ?_
    · intro o hoo
      subst hoo
      cases off with
      | none => simp at hoff
      | some w =>
        dsimp only at hoff
        rw [rdN_ok (ho w rfl), Res.ok_bind] at hoff
        simp only [Res.ok.injEq, Option.some.injEq] at hoff
        subst hoff
        have := ho w rfl
        simp
        omega
    · rw [foldAll_singleton c.1 bs (by omega) (by rw [hcl]; omega), rd_ok (by simp), Res.ok_bind]
      refine Res.bind_ne_ub (ptMul_ne_ub _ _) fun _ _ => Res.bind_ne_ub (ptAdd_ne_ub _ _) fun _ _ => ?_
      refine Res.bind_ne_ub (ptMul_ne_ub _ _) fun _ _ => Res.bind_ne_ub (ptMul_ne_ub _ _) fun _ _ => ?_
      refine Res.bind_ne_ub (ptAdd_ne_ub _ _) fun _ _ => Res.bind_ne_ub (ptAdd_ne_ub _ _) fun _ _ => ?_
      simp

theorem verifyQuadraticR_ne_ub (pf : QuadPfR) (gs hs : List Bytes)
    (n : Nat) (eq : ZMod order) (st : E.St) (u v : Option (List (ZMod order)))
    (hn1 : 1 ≤ n) (hn2 : n ≤ 2 ^ 63) (hg : n ≤ gs.length) (hh : n ≤ hs.length)
    (hu : ∀ o, u = some o → n ≤ o.length) (hv : ∀ o, v = some o → n ≤ o.length) :
    verifyQuadraticR E S pf gs hs n eq st u v ≠ .ub := by
  unfold verifyQuadraticR
  dsimp only
  refine Res.bind_ne_ub (ptMul_ne_ub _ _) fun f _ => Res.bind_ne_ub (ptAdd_ne_ub _ _) fun C _ => ?_
  split
  · simp
  rename_i hlen
  push Not at hlen
  obtain ⟨hL, hR⟩ := hlen
  rw [verifyQuadLoopB_eq E pf.Ls pf.Rs (log2roundUp n) n _ 0 _ (level_log hn1 hn2) (by omega)
    (by omega)]
  simp only [List.drop_zero]
  generalize hc : foldChallengesB E n _ pf.Ls pf.Rs = c
  have hcl : c.1.length = log2roundUp n := by rw [← hc]; simp; omega
  split
  · intro hu; cases hu
  rw [Res.ok_bind]
  dsimp only
  refine Res.bind_ne_ub (multiExpB_ne_ub le_rfl (by omega)) fun m1 _ => ?_
  refine Res.bind_ne_ub (multiExpB_ne_ub le_rfl (by simp; omega)) fun m2 _ => ?_
  refine Res.bind_ne_ub (ptAdd_ne_ub _ _) fun m _ => Res.bind_ne_ub (ptAdd_ne_ub _ _) fun C2 _ => ?_
  refine Res.bind_ne_ub (expR_ne_ub hn2 hg hcl.symm hu) fun tG _ => ?_
  refine Res.bind_ne_ub (expR_ne_ub hn2 hh (by simp [hcl]) hv) fun tH _ => ?_
  refine Res.bind_ne_ub (ptMul_ne_ub _ _) fun _ _ => Res.bind_ne_ub (ptAdd_ne_ub _ _) fun _ _ => ?_
  refine Res.bind_ne_ub (ptMul_ne_ub _ _) fun _ _ => Res.bind_ne_ub (ptAdd_ne_ub _ _) fun _ _ => ?_
  refine Res.bind_ne_ub (ptMul_ne_ub _ _) fun _ _ => Res.bind_ne_ub (ptAdd_ne_ub _ _) fun _ _ => ?_
  refine Res.bind_ne_ub (ptAdd_ne_ub _ _) fun _ _ => Res.bind_ne_ub (ptMul_ne_ub _ _) fun _ _ => ?_
  refine Res.bind_ne_ub (ptAdd_ne_ub _ _) fun _ _ => ?_
  simp

theorem ptMul_low (h : EncOk S E) (hT : IgnoresTopBit S) (g : G) {n : Bytes} (hn : n.length = 32)
    (h0 : number n = 0 ∨ ((number n % 2 ^ 255 : ℕ) : ZMod order) ≠ 0) :
    S.ptMul (E.pointBytes g) n = .ok (E.pointBytes (((number n % 2 ^ 255 : ℕ) : ZMod order) • g)) := by
  have hm : number (zzBytes 32 ((number n % 2 ^ 255 : ℕ) : ℤ)) = number n % 2 ^ 255 := by
    rw [← leVal_eq, zzBytes_val, Int.natAbs_natCast]
    apply Nat.mod_eq_of_lt
    exact lt_trans (Nat.mod_lt _ (by norm_num)) (by norm_num)
  unfold Sodium.ptMul
  rw [h.sodium.identityPoint]
  simp only [isZeroBytes_iff hn]
  split
  · rename_i hc
    rcases hc with hc | hc
    · rw [h.sodium.inj hc, smul_zero]
    · rw [hc, Nat.zero_mod, Nat.cast_zero, zero_smul]
  · rename_i hc
    push Not at hc
    have hg : g ≠ 0 := fun e => hc.1 (by rw [e])
    have hx := h0.resolve_left hc.2
    rw [hT n _ _ hn (zzBytes_length _ _) (by rw [hm, Nat.mod_mod]),
      h.sodium.mul _ g (zzBytes_length _ _) (by rw [hm]; exact Nat.mod_lt _ (by norm_num)), hm,
      if_pos ⟨hg, smul_ne_zero hx hg⟩]

theorem expR_low (h : EncOk S E) (hT : IgnoresTopBit S) (g : G) (gs : List G) (xs : List (ZMod order))
    {a : Bytes} (ha : a.length = 32)
    (h0 : number a = 0 ∨ ((number a % 2 ^ 255 : ℕ) : ZMod order) ≠ 0) {n : Nat} (hn : n = gs.length + 1)
    (h1 : n ≤ 2 ^ 63) (hx : log2roundUp n = xs.length) :
    ∃ t, expSubsetProductR E S ((g :: gs).map E.pointBytes) n xs a none = .ok t := by
  obtain ⟨l, hl, hsp, hfs⟩ := expR_core h.scalar g gs xs a hn h1 hx
  unfold expSubsetProductR
  dsimp only
  rw [hsp, Res.ok_bind, rdN_ok (by simp; omega), Res.ok_bind, List.take_of_length_le (by simp; omega),
    sumMul_first h, ptMul_low h hT g ha h0, Res.ok_bind,
    C62_multi_exp h.sodium gs _ l (forall₂_scalarBytes h.scalar _)]
  exact ⟨_, rfl⟩

theorem expR_low_val (h : EncOk S E) (hT : IgnoresTopBit S) (gs : List G) (xs : List (ZMod order))
    {a : Bytes} (ha : a.length = 32) (off : Option (List (ZMod order)))
    (h0 : off = none → number a = 0 ∨ ((number a % 2 ^ 255 : ℕ) : ZMod order) ≠ 0) {n : Nat} (hn1 : 1 ≤ n)
    (hn : gs.length = n) (h1 : n ≤ 2 ^ 63) (hx : log2roundUp n = xs.length)
    (ho : ∀ o, off = some o → o.length = n) :
    expSubsetProductR E S (gs.map E.pointBytes) n xs a off =
      .ok (E.pointBytes (((number a : ℕ) : ZMod order) • foldedSum xs gs + mexp (offList off) gs +
        firstErr a off • gs.headD 0)) := by
  cases gs with
  | nil => simp at hn; omega
  | cons g gs' =>
    cases off with
    | none =>
      obtain ⟨t, ht⟩ := expR_low h hT g gs' xs ha (h0 rfl) (by simpa using hn.symm) h1 hx
      rw [ht, expR_none h hT g gs' xs ha (by simpa using hn.symm) h1 hx ht]
      simp [offList, firstErr]
    | some o =>
      rw [expR_some h g gs' xs ha o (by simpa using hn.symm) h1 hx (ho o rfl)]
      simp [offList]

theorem verifyLinearR_low (h : EncOk S E) (hT : IgnoresTopBit S) (pf : LinPfR) (ha : pf.a.length = 32)
    (hr : pf.r.length = 32)
    (off : Option (List (ZMod order)))
    (ha0 : off = none → number pf.a = 0 ∨ ((number pf.a % 2 ^ 255 : ℕ) : ZMod order) ≠ 0)
    (hr0 : number pf.r = 0 ∨ ((number pf.r % 2 ^ 255 : ℕ) : ZMod order) ≠ 0)
    (bs : List (ZMod order)) (gs : List G) (n : Nat) (eq : ZMod order) (st : E.St)
    (hn1 : 1 ≤ n) (hn2 : n ≤ 2 ^ 63) (hb : bs.length = n)
    (hg : gs.length = n) (ho : ∀ o, off = some o → o.length = n)
    (hx : (deriveLinB E (linWith pf ((number pf.a : ℕ) : ZMod order)
        ((number pf.r % 2 ^ 255 : ℕ) : ZMod order)) n st).x ≠ 0) :
    verifyLinearR E S pf bs (gs.map E.pointBytes) n eq st off =
      verifyLinearB E S (linWith pf ((number pf.a : ℕ) : ZMod order)
        ((number pf.r % 2 ^ 255 : ℕ) : ZMod order)) bs (gs.map E.pointBytes) n eq st
        (some (offPlus n off (firstErr pf.a (off.map fun o => o.map (· * (deriveLinB E (linWith pf
        ((number pf.a : ℕ) : ZMod order) ((number pf.r % 2 ^ 255 : ℕ) : ZMod order)) n st).x)) / (deriveLinB E (linWith pf ((number pf.a : ℕ) : ZMod order)
        ((number pf.r % 2 ^ 255 : ℕ) : ZMod order)) n st).x))) := by
  simp only [deriveLinB] at hx
  simp only [verifyLinearR, verifyLinearB, linWith, deriveLinB, Env.newGenerator, lblC, lblF, lblS, lblx,
    Env.newChallenge]
  obtain ⟨f, hf⟩ : ∃ f, f = E.challenge (E.commit st [67] pf.C) [70] 32 := ⟨_, rfl⟩
  simp only [← hf] at hx ⊢
  refine Res.bind_congr fun eF _ => Res.bind_congr fun C1 _ => ?_
  by_cases hlen : pf.Ls.length ≠ log2roundUp n ∨ pf.Rs.length ≠ log2roundUp n
  · rw [if_pos hlen, if_pos hlen]
  rw [if_neg hlen, if_neg hlen]
  push Not at hlen
  rw [verifyLinLoopB_eq E pf.Ls pf.Rs (log2roundUp n) n _ 0 bs _ (level_log hn1 hn2) hb (by omega)
    (by omega)]
  simp only [List.drop_zero]
  obtain ⟨c, hc⟩ : ∃ c, c = foldChallengesB E n f.2 pf.Ls pf.Rs := ⟨_, rfl⟩
  simp only [← hc] at hx ⊢
  have hcl : c.1.length = log2roundUp n := by rw [hc]; simp; omega
  by_cases h0 : (0 : ZMod order) ∈ c.1
  · rw [if_pos h0]; rfl
  rw [if_neg h0, Res.ok_bind, Res.ok_bind]
  dsimp only
  refine Res.bind_congr fun m1 _ => Res.bind_congr fun m2 _ => Res.bind_congr fun m _ =>
    Res.bind_congr fun C2 _ => ?_
  obtain ⟨ch, hch⟩ : ∃ ch, ch = E.challenge (E.commit c.2 [83] pf.S) [120] 64 := ⟨_, rfl⟩
  simp only [← hch] at hx ⊢
  generalize E.scalarReduce ch.1 = x at hx ⊢
  refine Res.bind_congr fun xi _ => ?_
  have hl := length_offPlus hn1 off (firstErr pf.a (off.map fun o => o.map (· * x)) / x) ho
  conv_lhs =>
    arg 1
    equals (.ok (off.map fun o => o.map (· * x))) =>
      clear hl
      cases off with
      | none => rfl
      | some w =>
        have hw := ho w rfl
        dsimp only
        rw [rdN_ok (by omega), Res.ok_bind, List.take_of_length_le (by omega)]
        rfl
  rw [Res.ok_bind, rdN_ok (by omega), Res.ok_bind, Res.ok_bind,
    expB_val h gs c.1 _ _ hg hn2 hcl.symm (by rintro o ⟨⟩; simp [hl]),
    expR_low_val h hT gs c.1 ha (off.map fun o => o.map (· * x)) (fun hnone => ha0 (by simpa using hnone)) hn1 hg hn2
      hcl.symm (by
        intro o hoo
        cases off with
        | none => simp at hoo
        | some w =>
          have hw := ho w rfl
          rw [Option.map_some, Option.some.injEq] at hoo
          rw [← hoo, List.length_map, hw])]
  have hm : mexp (offList (off.map fun o => o.map (· * x))) gs = x • mexp (offList off) gs := by
    cases off with
    | none => simp [offList]
    | some w => simp only [offList, Option.map_some, Option.getD_some]; rw [mexp_smul_left]
  rw [hm]
  generalize firstErr pf.a (off.map fun o => o.map (· * x)) = e at hl ⊢
  rw [Res.ok_bind, Res.ok_bind]
  refine Res.bind_congr fun b0 _ => Res.bind_congr fun xC _ => Res.bind_congr fun lhs _ => ?_
  rw [h.sodium.basePoint, ptMul_low h hT _ hr hr0, h.mul, stands_mul h.scalar]
  simp only [offList, Option.getD_some]
  rw [mexp_smul_left, List.take_of_length_le (by omega), mexp_offPlus hn1 off _ ho, smul_add,
    smul_smul, mul_div_cancel₀ _ hx]
  simp only [offList, add_assoc]

theorem verifyQuadraticR_stands (h : EncOk S E) (pf : QuadPfR) {α β ρ : ZMod order} (ha : StandsFor pf.a α)
    (hb : StandsFor pf.b β) (hr : StandsFor pf.r ρ) (gs hs : List G) (n : Nat) (eq : ZMod order) (st : E.St)
    (u v : Option (List (ZMod order))) (hn1 : 1 ≤ n) (hn2 : n ≤ 2 ^ 63)
    (hg : gs.length = n) (hh : hs.length = n) (hu : ∀ o, u = some o → o.length = n)
    (hv : ∀ o, v = some o → o.length = n) :
    verifyQuadraticR E S pf (gs.map E.pointBytes) (hs.map E.pointBytes) n eq st u v =
      verifyQuadraticB E S (quadWith pf α β ρ) (gs.map E.pointBytes) (hs.map E.pointBytes) n eq st u v := by
  simp only [verifyQuadraticR, verifyQuadraticB, quadWith]
  refine Res.bind_congr fun f _ => Res.bind_congr fun C1 _ => ?_
  by_cases hlen : pf.Ls.length ≠ log2roundUp n ∨ pf.Rs.length ≠ log2roundUp n
  · rw [if_pos hlen, if_pos hlen]
  rw [if_neg hlen, if_neg hlen]
  push Not at hlen
  rw [verifyQuadLoopB_eq E pf.Ls pf.Rs (log2roundUp n) n _ 0 _ (level_log hn1 hn2) (by omega)
    (by omega)]
  simp only [List.drop_zero]
  obtain ⟨c, hc⟩ : ∃ c, c = foldChallengesB E n (E.newGenerator (E.commit st lblC pf.C) lblF).2 pf.Ls pf.Rs :=
    ⟨_, rfl⟩
  simp only [← hc]
  have hcl : c.1.length = log2roundUp n := by rw [hc]; simp; omega
  by_cases h0 : (0 : ZMod order) ∈ c.1
  · rw [if_pos h0]; rfl
  rw [if_neg h0, Res.ok_bind, Res.ok_bind]
  dsimp only
  refine Res.bind_congr fun m1 _ => Res.bind_congr fun m2 _ => Res.bind_congr fun m _ =>
    Res.bind_congr fun C2 _ => ?_
  rw [expR_stands h gs c.1 ha u hn1 hg hn2 hcl.symm hu, expB_val h gs c.1 α u hg hn2 hcl.symm hu,
    expR_stands h hs _ hb v hn1 hh hn2 (by simp [hcl]) hv, expB_val h hs _ β v hh hn2 (by simp [hcl]) hv,
    Res.ok_bind, Res.ok_bind, Res.ok_bind, Res.ok_bind]
  refine Res.bind_congr fun xS _ => Res.bind_congr fun s _ => Res.bind_congr fun xs _ =>
    Res.bind_congr fun lhs _ => ?_
  rw [h.sodium.basePoint, ptMul_stands h _ hr, h.mul, raw_mul h.scalar, ha.2.2.1, hb.2.2.1]

theorem verifyQuadraticR_ok (h : EncOk S E) (hT : IgnoresTopBit S) (pf : QuadPfR) (ha : pf.a.length = 32)
    (hb : pf.b.length = 32) (hr : pf.r.length = 32) (gs hs : List G) (n : Nat) (eq : ZMod order) (st : E.St)
    (u v : Option (List (ZMod order))) (w : Bool × E.St) (hn1 : 1 ≤ n) (hn2 : n ≤ 2 ^ 63)
    (hg : gs.length = n) (hh : hs.length = n) (hu : ∀ o, u = some o → o.length = n)
    (hv : ∀ o, v = some o → o.length = n)
    (acc : verifyQuadraticR E S pf (gs.map E.pointBytes) (hs.map E.pointBytes) n eq st u v = .ok w) :
    ∃ e e', e = firstErr pf.a u ∧ e' = firstErr pf.b v ∧
      verifyQuadraticB E S (quadWith pf ((number pf.a : ℕ) : ZMod order) ((number pf.b : ℕ) : ZMod order)
        ((number pf.r % 2 ^ 255 : ℕ) : ZMod order)) (gs.map E.pointBytes) (hs.map E.pointBytes) n eq st
        (some (offPlus n u e)) (some (offPlus n v e')) = .ok w := by
  simp only [verifyQuadraticR, Env.newGenerator, lblC, lblF, lblS1, lblS2, lblx, Env.newChallenge] at acc
  simp only [verifyQuadraticB, quadWith, Env.newGenerator, lblC, lblF, lblS1, lblS2, lblx, Env.newChallenge]
  obtain ⟨f, hf⟩ : ∃ f, f = E.challenge (E.commit st [67] pf.C) [70] 32 := ⟨_, rfl⟩
  simp only [← hf] at acc ⊢
  obtain ⟨eF, heF, acc⟩ := Res.bind_eq_ok.1 acc
  obtain ⟨C1, hC1, acc⟩ := Res.bind_eq_ok.1 acc
  split at acc
  · cases acc
  rename_i hlen
  simp only [heF, hC1, Res.ok_bind, if_neg hlen]
  push Not at hlen
  rw [verifyQuadLoopB_eq E pf.Ls pf.Rs (log2roundUp n) n _ 0 _ (level_log hn1 hn2) (by omega)
    (by omega)] at acc ⊢
  simp only [List.drop_zero] at acc ⊢
  obtain ⟨c, hc⟩ : ∃ c, c = foldChallengesB E n f.2 pf.Ls pf.Rs := ⟨_, rfl⟩
  simp only [← hc] at acc ⊢
  have hcl : c.1.length = log2roundUp n := by rw [hc]; simp; omega
  by_cases h0 : (0 : ZMod order) ∈ c.1
  · rw [if_pos h0] at acc
    cases acc
  rw [if_neg h0, Res.ok_bind] at acc
  simp only [if_neg h0, Res.ok_bind]
  dsimp only at acc
  obtain ⟨m1, e1, acc⟩ := Res.bind_eq_ok.1 acc
  obtain ⟨m2, e2, acc⟩ := Res.bind_eq_ok.1 acc
  obtain ⟨m, em, acc⟩ := Res.bind_eq_ok.1 acc
  obtain ⟨C2, eC2, acc⟩ := Res.bind_eq_ok.1 acc
  simp only [e1, e2, em, eC2, Res.ok_bind]
  obtain ⟨ch, hch⟩ : ∃ ch, ch = E.challenge (E.commit (E.commit c.2 [83, 49] pf.S1) [83, 50] pf.S2)
    [120] 64 := ⟨_, rfl⟩
  simp only [← hch] at acc ⊢
  generalize E.scalarReduce ch.1 = x at acc ⊢
  obtain ⟨tG, etG, acc⟩ := Res.bind_eq_ok.1 acc
  obtain ⟨tH, etH, acc⟩ := Res.bind_eq_ok.1 acc
  obtain ⟨xS, exS, acc⟩ := Res.bind_eq_ok.1 acc
  obtain ⟨s, es, acc⟩ := Res.bind_eq_ok.1 acc
  obtain ⟨xs, exs, acc⟩ := Res.bind_eq_ok.1 acc
  obtain ⟨lhs, elhs, acc⟩ := Res.bind_eq_ok.1 acc
  obtain ⟨rB, erB, acc⟩ := Res.bind_eq_ok.1 acc
  have htG := expR_ok h hT gs c.1 ha u hn1 hg hn2 hcl.symm hu etG
  have htH := expR_ok h hT hs _ hb v hn1 hh hn2 (by simp [hcl]) hv etH
  refine ⟨_, _, rfl, rfl, ?_⟩
  generalize firstErr pf.a u = e at htG ⊢
  generalize firstErr pf.b v = e' at htH ⊢
  have hl := length_offPlus hn1 u e hu
  have hl' := length_offPlus hn1 v e' hv
  rw [expB_val h gs c.1 _ _ hg hn2 hcl.symm (by rintro o ⟨⟩; simp [hl]), Res.ok_bind,
    expB_val h hs _ _ _ hh hn2 (by simp [hcl]) (by rintro o ⟨⟩; simp [hl']), Res.ok_bind, exS, Res.ok_bind, es,
    Res.ok_bind, exs, Res.ok_bind, elhs, Res.ok_bind]
  rw [h.sodium.basePoint] at erB ⊢
  rw [ptMul_raw h hT _ hr erB, raw_mul h.scalar, htG, htH] at acc
  rw [h.mul, Res.ok_bind]
  simp only [offList, Option.getD_some]
  rw [mexp_offPlus hn1 u _ hu, mexp_offPlus hn1 v _ hv, ← add_assoc, ← add_assoc]
  exact acc

theorem verifyQuadraticR_low (h : EncOk S E) (hT : IgnoresTopBit S) (pf : QuadPfR) (ha : pf.a.length = 32)
    (hb : pf.b.length = 32) (hr : pf.r.length = 32)
    (u v : Option (List (ZMod order)))
    (ha0 : u = none → number pf.a = 0 ∨ ((number pf.a % 2 ^ 255 : ℕ) : ZMod order) ≠ 0)
    (hb0 : v = none → number pf.b = 0 ∨ ((number pf.b % 2 ^ 255 : ℕ) : ZMod order) ≠ 0)
    (hr0 : number pf.r = 0 ∨ ((number pf.r % 2 ^ 255 : ℕ) : ZMod order) ≠ 0)
    (gs hs : List G) (n : Nat) (eq : ZMod order) (st : E.St) (hn1 : 1 ≤ n) (hn2 : n ≤ 2 ^ 63)
    (hg : gs.length = n) (hh : hs.length = n) (hu : ∀ o, u = some o → o.length = n)
    (hv : ∀ o, v = some o → o.length = n) :
    verifyQuadraticR E S pf (gs.map E.pointBytes) (hs.map E.pointBytes) n eq st u v =
      verifyQuadraticB E S (quadWith pf ((number pf.a : ℕ) : ZMod order) ((number pf.b : ℕ) : ZMod order)
        ((number pf.r % 2 ^ 255 : ℕ) : ZMod order)) (gs.map E.pointBytes) (hs.map E.pointBytes) n eq st
        (some (offPlus n u (firstErr pf.a u))) (some (offPlus n v (firstErr pf.b v))) := by
  simp only [verifyQuadraticR, verifyQuadraticB, quadWith]
  refine Res.bind_congr fun f _ => Res.bind_congr fun C1 _ => ?_
  by_cases hlen : pf.Ls.length ≠ log2roundUp n ∨ pf.Rs.length ≠ log2roundUp n
  · rw [if_pos hlen, if_pos hlen]
  rw [if_neg hlen, if_neg hlen]
  push Not at hlen
  rw [verifyQuadLoopB_eq E pf.Ls pf.Rs (log2roundUp n) n _ 0 _ (level_log hn1 hn2) (by omega)
    (by omega)]
  simp only [List.drop_zero]
  obtain ⟨c, hc⟩ : ∃ c, c = foldChallengesB E n (E.newGenerator (E.commit st lblC pf.C) lblF).2 pf.Ls pf.Rs :=
    ⟨_, rfl⟩
  simp only [← hc]
  have hcl : c.1.length = log2roundUp n := by rw [hc]; simp; omega
  by_cases h0 : (0 : ZMod order) ∈ c.1
  · rw [if_pos h0]; rfl
  rw [if_neg h0, Res.ok_bind, Res.ok_bind]
  dsimp only
  refine Res.bind_congr fun m1 _ => Res.bind_congr fun m2 _ => Res.bind_congr fun m _ =>
    Res.bind_congr fun C2 _ => ?_
  have hl := length_offPlus hn1 u (firstErr pf.a u) hu
  have hl' := length_offPlus hn1 v (firstErr pf.b v) hv
  rw [expR_low_val h hT gs c.1 ha u ha0 hn1 hg hn2 hcl.symm hu,
    expR_low_val h hT hs _ hb v hb0 hn1 hh hn2 (by simp [hcl]) hv,
    expB_val h gs c.1 _ _ hg hn2 hcl.symm (by rintro o ⟨⟩; exact hl),
    expB_val h hs _ _ _ hh hn2 (by simp [hcl]) (by rintro o ⟨⟩; exact hl')]
  simp only [offList, Option.getD_some]
  rw [mexp_offPlus hn1 u _ hu, mexp_offPlus hn1 v _ hv, ← add_assoc, ← add_assoc]
  simp only [offList]
  refine Res.bind_congr fun tG _ => Res.bind_congr fun tH _ => ?_
  refine Res.bind_congr fun xS _ => Res.bind_congr fun s _ => Res.bind_congr fun xs _ =>
    Res.bind_congr fun lhs _ => ?_
  rw [h.sodium.basePoint, ptMul_low h hT _ hr hr0, h.mul, raw_mul h.scalar]

end

end Verif
