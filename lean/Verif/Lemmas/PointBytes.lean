/-
Lemmas about the verifiers on points as bytes.
-/
import Verif.Spec.PointBytes
import Verif.Lemmas.BPVerify
import Verif.Props.ScalarField

namespace Verif
open Verif.Spec Verif.Sc Verif.Props

section loops
variable {F G : Type} [Field F] [DecidableEq F]

omit [Field F] [DecidableEq F] in
@[simp] theorem length_foldChallengesB (E : Env F G) (n : Nat) (st : E.St) (Ls Rs : List Bytes) :
    (foldChallengesB E n st Ls Rs).1.length = min Ls.length Rs.length := by
  induction Ls generalizing n st Rs with
  | nil => cases Rs <;> simp [foldChallengesB]
  | cons L Ls ih => cases Rs with
    | nil => simp [foldChallengesB]
    | cons R Rs => simp [foldChallengesB, ih]

theorem verifyLinLoopB_eq (E : Env F G) (Ls Rs : List Bytes) (ell : Nat) :
    ∀ (n h ii : Nat) (bs : List F) (st : E.St), Level n h ell → bs.length = n →
      Ls.length = ii + ell → Rs.length = ii + ell →
      verifyLinLoopB E Ls Rs n h ii bs st =
        (let c := foldChallengesB E n st (Ls.drop ii) (Rs.drop ii)
         if 0 ∈ c.1 then .throw else .ok (c.1, c.1.map (·⁻¹), foldAll c.1 bs, c.2)) := by
  induction ell with
  | zero =>
    intro n h ii bs st hl hb hL hR
    have hn : n = 1 := hl
    subst hn
    rw [verifyLinLoopB, if_neg (by omega)]
    rw [List.drop_of_length_le (by omega : Ls.length ≤ ii)]
    simp [foldChallengesB, foldAll]
  | succ m ih =>
    intro n h ii bs st hl hb hL hR
    obtain ⟨hh1, hh2, hh3, hh4⟩ := hl.half
    rw [verifyLinLoopB, if_pos hh3, rd_ok (by omega : ii < Ls.length), rd_ok (by omega : ii < Rs.length)]
    have hdL : Ls.drop ii = Ls[ii] :: Ls.drop (ii + 1) := List.drop_eq_getElem_cons (by omega)
    have hdR : Rs.drop ii = Rs[ii] :: Rs.drop (ii + 1) := List.drop_eq_getElem_cons (by omega)
    have hlen : (Ls.drop (ii + 1)).length = m := by simp; omega
    obtain ⟨ch, hch⟩ : ∃ ch, ch = E.challenge (E.commit (E.commit st (decBytes n ++ [76])
      Ls[ii]) [82] Rs[ii]) [120] 64 := ⟨_, rfl⟩
    obtain ⟨c, hc⟩ : ∃ c, c = foldChallengesB E h ch.2 (Ls.drop (ii + 1)) (Rs.drop (ii + 1)) := ⟨_, rfl⟩
    have hfc : foldChallengesB E n st (Ls.drop ii) (Rs.drop ii) = (E.scalarReduce ch.1 :: c.1, c.2) := by
      rw [hdL, hdR, foldChallengesB, hlen, ← hh4, hc, hch]
    rw [hfc]
    simp only [Res.ok_bind, Env.newChallenge, lblL, lblR, lblx, inverseOf, ← hch]
    by_cases hx : E.scalarReduce ch.1 = 0
    · simp [hx]
    · rw [if_neg hx]
      simp only [Res.ok_bind]
      rw [rdN_ok (by simp; omega)]
      simp only [Res.ok_bind]
      have hfold : (addInto bs (List.map (fun b => b * E.scalarReduce ch.1)
          (List.take (n - h) (List.drop h bs)))).take h = foldP h (E.scalarReduce ch.1) bs := by
        rw [List.take_of_length_le (l := bs.drop h) (by simp; omega), take_addInto, ← foldS_eq_foldP]
        rfl
      rw [hfold, ih h (h / 2) (ii + 1) _ ch.2 hl.next (by simp; omega) (by omega) (by omega)]
      rw [← hc]
      simp only
      have hc1 : c.1.length = m := by
        rw [hc]; simp; omega
      by_cases h0 : (0 : F) ∈ c.1
      · simp [h0]
      · have : ¬(0 ∈ E.scalarReduce ch.1 :: c.1) := by
          rw [List.mem_cons]
          rintro (h | h)
          · exact hx h.symm
          · exact h0 h
        rw [if_neg h0, if_neg this]
        simp [foldAll, hc1, hh4]

theorem verifyQuadLoopB_eq (E : Env F G) (Ls Rs : List Bytes) (ell : Nat) :
    ∀ (n h ii : Nat) (st : E.St), Level n h ell →
      Ls.length = ii + ell → Rs.length = ii + ell →
      verifyQuadLoopB E Ls Rs n h ii st =
        (let c := foldChallengesB E n st (Ls.drop ii) (Rs.drop ii)
         if 0 ∈ c.1 then .throw else .ok (c.1, c.1.map (·⁻¹), c.2)) := by
  induction ell with
  | zero =>
    intro n h ii st hl hL hR
    have hn : n = 1 := hl
    subst hn
    rw [verifyQuadLoopB, if_neg (by omega)]
    rw [List.drop_of_length_le (by omega : Ls.length ≤ ii)]
    simp [foldChallengesB]
  | succ m ih =>
    intro n h ii st hl hL hR
    obtain ⟨hh1, hh2, hh3, hh4⟩ := hl.half
    rw [verifyQuadLoopB, if_pos hh3, rd_ok (by omega : ii < Ls.length), rd_ok (by omega : ii < Rs.length)]
    have hdL : Ls.drop ii = Ls[ii] :: Ls.drop (ii + 1) := List.drop_eq_getElem_cons (by omega)
    have hdR : Rs.drop ii = Rs[ii] :: Rs.drop (ii + 1) := List.drop_eq_getElem_cons (by omega)
    have hlen : (Ls.drop (ii + 1)).length = m := by simp; omega
    obtain ⟨ch, hch⟩ : ∃ ch, ch = E.challenge (E.commit (E.commit st (decBytes n ++ [76])
      Ls[ii]) [82] Rs[ii]) [120] 64 := ⟨_, rfl⟩
    obtain ⟨c, hc⟩ : ∃ c, c = foldChallengesB E h ch.2 (Ls.drop (ii + 1)) (Rs.drop (ii + 1)) := ⟨_, rfl⟩
    have hfc : foldChallengesB E n st (Ls.drop ii) (Rs.drop ii) = (E.scalarReduce ch.1 :: c.1, c.2) := by
      rw [hdL, hdR, foldChallengesB, hlen, ← hh4, hc, hch]
    rw [hfc]
    simp only [Res.ok_bind, Env.newChallenge, lblL, lblR, lblx, inverseOf, ← hch]
    by_cases hx : E.scalarReduce ch.1 = 0
    · simp [hx]
    · rw [if_neg hx]
      simp only [Res.ok_bind]
      rw [ih h (h / 2) (ii + 1) ch.2 hl.next (by omega) (by omega)]
      rw [← hc]
      simp only
      by_cases h0 : (0 : F) ∈ c.1
      · simp [h0]
      · have : ¬(0 ∈ E.scalarReduce ch.1 :: c.1) := by
          rw [List.mem_cons]
          rintro (h | h)
          · exact hx h.symm
          · exact h0 h
        rw [if_neg h0, if_neg this]
        simp

end loops

section
variable {K G : Type} [AddCommGroup K] [DecidableEq G] [AddCommGroup G] [Module (ZMod order) G]
  {S : Sodium} {E : Env (ZMod order) G}

omit [DecidableEq G] in
theorem foldChallengesB_map (n : Nat) (st : E.St) (Ls Rs : List G) :
    foldChallengesB E n st (Ls.map E.pointBytes) (Rs.map E.pointBytes) = foldChallenges E n st Ls Rs := by
  induction Ls generalizing n st Rs with
  | nil => cases Rs <;> simp [foldChallengesB, foldChallenges]
  | cons L Ls ih => cases Rs with
    | nil => simp [foldChallengesB, foldChallenges]
    | cons R Rs => simp [foldChallengesB, foldChallenges, ih]

/-- What is needed of the environment. -/
structure EncOk (S : Sodium) (E : Env (ZMod order) G) : Prop where
  sodium : SodiumOk S E.pointBytes E.base
  scalar : ∀ x, IsScalar (E.scalarBytes x) x

theorem EncOk.add (h : EncOk S E) (p q : G) :
    S.ptAdd (E.pointBytes p) (E.pointBytes q) = .ok (E.pointBytes (p + q)) :=
  (C62_point_operations h.sodium p q _ 0 (h.scalar 0)).1

theorem EncOk.mul (h : EncOk S E) (p : G) (x : ZMod order) :
    S.ptMul (E.pointBytes p) (E.scalarBytes x) = .ok (E.pointBytes (x • p)) :=
  (C62_point_operations h.sodium p p _ x (h.scalar x)).2.2

theorem EncOk.sum (h : EncOk S E) (ps : List G) (xs : List (ZMod order)) :
    S.sumMul (xs.map E.scalarBytes) (ps.map E.pointBytes) S.identityPoint =
      .ok (E.pointBytes (mexp xs ps)) := by
  rw [h.sodium.identityPoint, C62_multi_exp h.sodium ps _ xs, zero_add]
  induction xs with
  | nil => exact List.Forall₂.nil
  | cons x xs ih => exact List.Forall₂.cons (h.scalar x) ih

theorem Res.bind_assoc' {α β γ : Type} (r : Res α) (f : α → Res β) (g : β → Res γ) :
    ((r >>= f) >>= g) = r >>= fun a => f a >>= g := by
  cases r <;> rfl

theorem rdN_map {α β : Type} (f : α → β) (p : List α) (n : Nat) :
    rdN (p.map f) n = (rdN p n >>= fun l => .ok (l.map f)) := by
  unfold rdN
  rw [List.length_map]
  split
  · rw [Res.ok_bind, List.map_take]
  · rfl

theorem multiExpB_ok (h : EncOk S E) {gs : List G} {n : Nat} {xs : List (ZMod order)}
    (h1 : n ≤ gs.length) (h2 : n ≤ xs.length) :
    multiExpB E S (gs.map E.pointBytes) n xs = .ok (E.pointBytes (mexp (xs.take n) (gs.take n))) := by
  unfold multiExpB
  rw [rdN_ok (by simpa using h1), rdN_ok h2, Res.ok_bind, Res.ok_bind, ← List.map_take, h.sum]

theorem multiExpB_map (h : EncOk S E) (gs : List G) (n : Nat) (xs : List (ZMod order)) :
    multiExpB E S (gs.map E.pointBytes) n xs = (multiExp gs n xs >>= fun p => .ok (E.pointBytes p)) := by
  by_cases h1 : n ≤ gs.length
  · by_cases h2 : n ≤ xs.length
    · rw [multiExpB_ok h h1 h2, multiExp_ok h1 h2, Res.ok_bind]
    · unfold multiExpB multiExp rdN
      rw [List.length_map, if_pos h1, if_neg h2, if_pos h1]
      rfl
  · unfold multiExpB multiExp rdN
    rw [List.length_map, if_neg h1, if_neg h1]
    rfl

theorem expSubsetProductB_map (h : EncOk S E) (gs : List G) (n : Nat) (xs : List (ZMod order))
    (a : ZMod order) (off : Option (List (ZMod order))) :
    expSubsetProductB E S (gs.map E.pointBytes) n xs a off =
      (expSubsetProduct gs n xs a off >>= fun p => .ok (E.pointBytes p)) := by
  unfold expSubsetProductB expSubsetProduct
  dsimp only
  cases subsetProduct n xs (log2roundUp n) a with
  | throw => rfl
  | ub => rfl
  | ok prods =>
    simp only [Res.ok_bind]
    cases off with
    | none => exact multiExpB_map h _ _ _
    | some o =>
      dsimp only
      cases rdN o n with
      | throw => rfl
      | ub => rfl
      | ok o' => simp only [Res.ok_bind]; exact multiExpB_map h _ _ _

theorem verifyLinLoopB_map (Ls Rs : List G) :
    ∀ (k n h ii : Nat) (bs : List (ZMod order)) (st : E.St), (if n > 1 then h + 1 else 0) ≤ k →
      verifyLinLoopB E (Ls.map E.pointBytes) (Rs.map E.pointBytes) n h ii bs st =
        verifyLinLoop E Ls Rs n h ii bs st := by
  have hr : ∀ (l : List G) (i : Nat), rd (l.map E.pointBytes) i = (rd l i >>= fun p => .ok (E.pointBytes p)) := by
    intro l i
    unfold rd
    by_cases hi : i < l.length
    · simp [hi]
    · simp [hi]
  intro k
  induction k with
  | zero =>
    intro n h ii bs st hk
    have : ¬ n > 1 := by
      intro hn
      rw [if_pos hn] at hk
      omega
    rw [verifyLinLoopB, verifyLinLoop, if_neg this, if_neg this]
  | succ k ih =>
    intro n h ii bs st hk
    rw [verifyLinLoopB, verifyLinLoop]
    split
    · rename_i hn
      rw [if_pos hn] at hk
      rw [hr, hr]
      cases rd Ls ii with
      | throw => rfl
      | ub => rfl
      | ok L =>
        cases rd Rs ii with
        | throw => rfl
        | ub => rfl
        | ok R =>
          simp only [Res.ok_bind, Env.processPoint]
          have hk' : (if h > 1 then h / 2 + 1 else 0) ≤ k := by split <;> omega
          simp only [ih h (h / 2) (ii + 1) _ _ hk']
    · rfl

theorem verifyQuadLoopB_map (Ls Rs : List G) :
    ∀ (k n h ii : Nat) (st : E.St), (if n > 1 then h + 1 else 0) ≤ k →
      verifyQuadLoopB E (Ls.map E.pointBytes) (Rs.map E.pointBytes) n h ii st =
        verifyQuadLoop E Ls Rs n h ii st := by
  have hr : ∀ (l : List G) (i : Nat), rd (l.map E.pointBytes) i = (rd l i >>= fun p => .ok (E.pointBytes p)) := by
    intro l i
    unfold rd
    by_cases hi : i < l.length
    · simp [hi]
    · simp [hi]
  intro k
  induction k with
  | zero =>
    intro n h ii st hk
    have : ¬ n > 1 := by
      intro hn
      rw [if_pos hn] at hk
      omega
    rw [verifyQuadLoopB, verifyQuadLoop, if_neg this, if_neg this]
  | succ k ih =>
    intro n h ii st hk
    rw [verifyQuadLoopB, verifyQuadLoop]
    split
    · rename_i hn
      rw [if_pos hn] at hk
      rw [hr, hr]
      cases rd Ls ii with
      | throw => rfl
      | ub => rfl
      | ok L =>
        cases rd Rs ii with
        | throw => rfl
        | ub => rfl
        | ok R =>
          simp only [Res.ok_bind, Env.processPoint]
          have hk' : (if h > 1 then h / 2 + 1 else 0) ≤ k := by split <;> omega
          simp only [ih h (h / 2) (ii + 1) _ hk']
    · rfl

theorem pointBytes_eq_iff (h : EncOk S E) (p q : G) :
    decide (E.pointBytes p = E.pointBytes q) = decide (p = q) :=
  decide_eq_decide.2 h.sodium.inj.eq_iff

theorem verifyLinearB_map (h : EncOk S E) (pf : LinPf (ZMod order) G) (bs : List (ZMod order))
    (gs : List G) (n : Nat) (eq : ZMod order) (st : E.St) (off : Option (List (ZMod order))) :
    verifyLinearB E S (linBytes E pf) bs (gs.map E.pointBytes) n eq st off =
      verifyLinear E pf bs gs n eq st off := by
  simp only [verifyLinearB, verifyLinear, linBytes, Env.processPoint, h.mul, h.add, Res.ok_bind,
    List.length_map]
  split
  · rfl
  · rw [verifyLinLoopB_map pf.Ls pf.Rs _ _ _ _ _ _ le_rfl]
    cases verifyLinLoop E pf.Ls pf.Rs n (next2power n / 2) 0 bs _ with
    | throw => rfl
    | ub => rfl
    | ok v =>
      obtain ⟨xes, xInvs, bs', st1⟩ := v
      simp only [Res.ok_bind, multiExpB_map h]
      cases multiExp pf.Ls pf.Ls.length xes with
      | throw => rfl
      | ub => rfl
      | ok m1 =>
        cases multiExp pf.Rs pf.Rs.length xInvs with
        | throw => rfl
        | ub => rfl
        | ok m2 =>
          simp only [Res.ok_bind, h.add]
          cases off with
          | none =>
            simp only [Res.ok_bind, Res.bind_assoc', expSubsetProductB_map h, h.sodium.basePoint, h.mul,
              h.add, pointBytes_eq_iff h]
            rfl
          | some w =>
            simp only [Res.ok_bind, Res.bind_assoc', expSubsetProductB_map h, h.sodium.basePoint, h.mul,
              h.add, pointBytes_eq_iff h]
            rfl

theorem verifyQuadraticB_map (h : EncOk S E) (pf : QuadPf (ZMod order) G) (gs hs : List G) (n : Nat)
    (eq : ZMod order) (st : E.St) (u v : Option (List (ZMod order))) :
    verifyQuadraticB E S (quadBytes E pf) (gs.map E.pointBytes) (hs.map E.pointBytes) n eq st u v =
      verifyQuadratic E pf gs hs n eq st u v := by
  simp only [verifyQuadraticB, verifyQuadratic, quadBytes, Env.processPoint, h.mul, h.add, Res.ok_bind,
    List.length_map]
  split
  · rfl
  · rw [verifyQuadLoopB_map pf.Ls pf.Rs _ _ _ _ _ le_rfl]
    cases verifyQuadLoop E pf.Ls pf.Rs n (next2power n / 2) 0 _ with
    | throw => rfl
    | ub => rfl
    | ok w =>
      obtain ⟨xes, xInvs, st1⟩ := w
      simp only [Res.ok_bind, multiExpB_map h, expSubsetProductB_map h]
      cases multiExp pf.Ls pf.Ls.length xes with
      | throw => rfl
      | ub => rfl
      | ok m1 =>
        cases multiExp pf.Rs pf.Rs.length xInvs with
        | throw => rfl
        | ub => rfl
        | ok m2 =>
          simp only [Res.ok_bind, h.add]
          cases expSubsetProduct gs n xes pf.a u with
          | throw => rfl
          | ub => rfl
          | ok tG =>
            cases expSubsetProduct hs n xInvs pf.b v with
            | throw => rfl
            | ub => rfl
            | ok tH =>
              simp only [Res.ok_bind, h.sodium.basePoint, h.mul, h.add, pointBytes_eq_iff h]
              rfl

/-! ### Arbitrary bytes -/

variable {enc : K → Bytes} {dec : Bytes → Option K} {ι : G →+ K}

theorem Spec.CurveOk.dec_identity (h : CurveOk S enc dec ι E.base) : dec S.identityPoint = some 0 := by
  rw [h.identityPoint, h.dec_enc, map_zero]

theorem Spec.CurveOk.iota_inj (h : CurveOk S enc dec ι E.base) : Function.Injective ι := fun a b hab =>
  h.inj (by rw [hab])

/-- If a sum decodes, both summands do. -/
theorem Spec.CurveOk.add_inv (h : CurveOk S enc dec ι E.base) {p q r : Bytes} {c : K}
    (e : S.ptAdd p q = .ok r) (hr : dec r = some c) :
    ∃ a b, dec p = some a ∧ dec q = some b ∧ a + b = c := by
  unfold Sodium.ptAdd at e
  split at e
  · rename_i hq
    simp only [Res.ok.injEq] at e
    subst e
    exact ⟨c, 0, hr, by rw [hq, h.dec_identity], add_zero c⟩
  · split at e
    · rename_i hp
      simp only [Res.ok.injEq] at e
      subst e
      exact ⟨0, c, by rw [hp, h.dec_identity], hr, zero_add c⟩
    · split at e
      · rename_i s hs
        simp only [Res.ok.injEq] at e
        subst e
        obtain ⟨a, b, ha, hb, rfl⟩ := h.add_any _ _ _ hs
        rw [h.dec_enc, Option.some_inj] at hr
        exact ⟨a, b, ha, hb, hr⟩
      · cases e

/-- A product with a nonzero scalar is returned only for the canonical encoding of a point of the
main subgroup. -/
theorem Spec.CurveOk.mul_inv (h : CurveOk S enc dec ι E.base) {p n r : Bytes} {x : ZMod order}
    (hn : IsScalar n x) (hx : x ≠ 0) (e : S.ptMul p n = .ok r) :
    ∃ g : G, p = enc (ι g) ∧ r = enc (ι (x • g)) := by
  have hp : ∃ g : G, p = enc (ι g) := by
    unfold Sodium.ptMul at e
    split at e
    · rename_i h0
      rcases h0 with h0 | h0
      · exact ⟨0, by rw [h0, h.identityPoint]⟩
      · exact absurd ((C59_ring_operations n n x x hn hn).2.2.2.2.2.1 h0) hx
    · split at e
      · rename_i s hs
        exact h.mul_any _ _ _ hs
      · cases e
  obtain ⟨g, rfl⟩ := hp
  have := (C62_point_operations h.toSodiumOk g g n x hn).2.2
  rw [this, Res.ok.injEq] at e
  exact ⟨g, rfl, e.symm⟩

theorem Spec.CurveOk.sum_inv (h : CurveOk S enc dec ι E.base) (hs : ∀ x, IsScalar (E.scalarBytes x) x) :
    ∀ (ps : List Bytes) (xs : List (ZMod order)) (acc r : Bytes), ps.length = xs.length → 0 ∉ xs →
      S.sumMul (xs.map E.scalarBytes) ps acc = .ok r →
      ∃ gs : List G, ps = gs.map fun g => enc (ι g) := by
  intro ps
  induction ps with
  | nil => intro xs acc r _ _ _; exact ⟨[], rfl⟩
  | cons p ps ih =>
    intro xs acc r hl h0 e
    cases xs with
    | nil => simp at hl
    | cons x xs =>
      rw [List.map_cons, Sodium.sumMul] at e
      obtain ⟨t, e1, e⟩ := Res.bind_eq_ok.1 e
      obtain ⟨acc', e2, e⟩ := Res.bind_eq_ok.1 e
      obtain ⟨g, hg, -⟩ := h.mul_inv (hs x) (fun hx => h0 (by rw [hx]; exact List.mem_cons_self)) e1
      obtain ⟨gs, hgs⟩ := ih xs acc' r (by simpa using hl)
        (fun hx => h0 (List.mem_cons_of_mem _ hx)) e
      exact ⟨g :: gs, by rw [List.map_cons, hg, hgs]⟩

theorem multiExpB_inv (h : CurveOk S enc dec ι E.base) (hs : ∀ x, IsScalar (E.scalarBytes x) x)
    {ps : List Bytes} {xs : List (ZMod order)} {r : Bytes} (hl : ps.length = xs.length) (h0 : 0 ∉ xs)
    (e : multiExpB E S ps ps.length xs = .ok r) :
    ∃ gs : List G, ps = gs.map (fun g => enc (ι g)) := by
  unfold multiExpB at e
  rw [rdN_ok le_rfl, rdN_ok (by omega), Res.ok_bind, Res.ok_bind, List.take_length, hl,
    List.take_length] at e
  exact h.sum_inv hs ps xs _ r hl h0 e

theorem encOk_of_curve (h : CurveOk S enc dec ι E.base) (hp : E.pointBytes = fun g => enc (ι g))
    (hs : ∀ x, IsScalar (E.scalarBytes x) x) : EncOk S E :=
  ⟨by rw [hp]; exact h.toSodiumOk, hs⟩

theorem verifyLinearB_accepts (h : CurveOk S enc dec ι E.base) (hp : E.pointBytes = fun g => enc (ι g))
    (hs : ∀ x, IsScalar (E.scalarBytes x) x) (pf : LinPfB (ZMod order)) (bs : List (ZMod order))
    (gs : List G) (n : Nat) (eq : ZMod order) (st st' : E.St) (off : Option (List (ZMod order)))
    (hn1 : 1 ≤ n) (hn2 : n ≤ 2 ^ 63) (hb : bs.length = n) (hg : gs.length = n)
    (ho : ∀ o, off = some o → o.length = n)
    (acc : verifyLinearB E S pf bs (gs.map E.pointBytes) n eq st off = .ok (true, st')) :
    0 ∉ (deriveLinB E pf n st).xs ∧ (deriveLinB E pf n st).x ≠ 0 ∧ st' = (deriveLinB E pf n st).st ∧
    ∃ (C Sp : G) (Ls Rs : List G), dec pf.C = some (ι C) ∧ dec pf.S = some (ι Sp) ∧
      pf.Ls = Ls.map E.pointBytes ∧ pf.Rs = Rs.map E.pointBytes ∧
      LinEq E ⟨pf.tag, C, Ls, Rs, Sp, pf.a, pf.r⟩ bs gs eq (offList off) (deriveLinB E pf n st) := by
  have hE := encOk_of_curve h hp hs
  have hde : ∀ g : G, dec (E.pointBytes g) = some (ι g) := fun g => by rw [hp]; exact h.dec_enc _
  simp only [verifyLinearB, Env.newGenerator, lblC, lblF, lblS, lblx, Env.newChallenge] at acc
  simp only [deriveLinB]
  obtain ⟨f, hf⟩ : ∃ f, f = E.challenge (E.commit st [67] pf.C) [70] 32 := ⟨_, rfl⟩
  simp only [← hf] at acc ⊢
  rw [hE.mul, Res.ok_bind] at acc
  obtain ⟨C1, eC1, acc⟩ := Res.bind_eq_ok.1 acc
  split at acc
  · cases acc
  rename_i hlen
  push Not at hlen
  obtain ⟨hL, hR⟩ := hlen
  rw [verifyLinLoopB_eq E pf.Ls pf.Rs (log2roundUp n) n _ 0 bs _ (level_log hn1 hn2) hb (by omega)
    (by omega)] at acc
  simp only [List.drop_zero] at acc
  obtain ⟨c, hc⟩ : ∃ c, c = foldChallengesB E n f.2 pf.Ls pf.Rs := ⟨_, rfl⟩
  simp only [← hc] at acc ⊢
  have hcl : c.1.length = log2roundUp n := by rw [hc]; simp; omega
  by_cases h0 : (0 : ZMod order) ∈ c.1
  · rw [if_pos h0] at acc
    cases acc
  rw [if_neg h0, Res.ok_bind] at acc
  dsimp only at acc
  obtain ⟨m1, e1, acc⟩ := Res.bind_eq_ok.1 acc
  obtain ⟨m2, e2, acc⟩ := Res.bind_eq_ok.1 acc
  have h0i : (0 : ZMod order) ∉ c.1.map (·⁻¹) := by
    rw [List.mem_map]
    rintro ⟨x, hx, hx0⟩
    rw [inv_eq_zero] at hx0
    exact h0 (hx0 ▸ hx)
  obtain ⟨Ls, hLs⟩ := multiExpB_inv h hs (by omega) h0 e1
  obtain ⟨Rs, hRs⟩ := multiExpB_inv h hs (by simp; omega) h0i e2
  rw [← hp] at hLs hRs
  have hLl : Ls.length = pf.Ls.length := by rw [hLs, List.length_map]
  have hRl : Rs.length = pf.Rs.length := by rw [hRs, List.length_map]
  rw [hLs, multiExpB_ok hE (by simp) (by simp; omega), Res.ok.injEq] at e1
  rw [hRs, multiExpB_ok hE (by simp) (by simp; omega), Res.ok.injEq] at e2
  rw [← e1, ← e2, hE.add, Res.ok_bind] at acc
  obtain ⟨C2, eC2, acc⟩ := Res.bind_eq_ok.1 acc
  obtain ⟨ch, hch⟩ : ∃ ch, ch = E.challenge (E.commit c.2 [83] pf.S) [120] 64 := ⟨_, rfl⟩
  simp only [← hch, inverseOf] at acc ⊢
  by_cases hx : E.scalarReduce ch.1 = 0
  · rw [if_pos hx] at acc
    cases acc
  rw [if_neg hx, Res.ok_bind] at acc
  have hfin : ∀ off' : Option (List (ZMod order)), ∀ tmp : G,
      expSubsetProduct gs n c.1 pf.a off' = .ok tmp →
      tmp = pf.a • foldedSum c.1 gs + E.scalarReduce ch.1 • mexp (offList off) gs →
      ((do
        let tmp ← expSubsetProductB E S (gs.map E.pointBytes) n c.1 pf.a off'
        let b0 ← rd (foldAll c.1 bs) 0
        let xC ← S.ptMul C2 (E.scalarBytes (E.scalarReduce ch.1))
        let lhs ← S.ptAdd pf.S xC
        let rB ← S.ptMul S.basePoint (E.scalarBytes pf.r)
        let fF ← S.ptMul (E.pointBytes (E.fromUniform f.1)) (E.scalarBytes (pf.a * b0))
        let t ← S.ptAdd rB fF
        let rhs ← S.ptAdd t tmp
        .ok (decide (lhs = rhs), ch.2)) : Res (Bool × E.St)) = .ok (true, st') →
      st' = ch.2 ∧ ∃ (C Sp : G) (Ls Rs : List G), dec pf.C = some (ι C) ∧ dec pf.S = some (ι Sp) ∧
        pf.Ls = Ls.map E.pointBytes ∧ pf.Rs = Rs.map E.pointBytes ∧
        LinEq E ⟨pf.tag, C, Ls, Rs, Sp, pf.a, pf.r⟩ bs gs eq (offList off)
          ⟨E.fromUniform f.1, c.1, E.scalarReduce ch.1, ch.2⟩ := by
    intro off' tmp ht htmp hfin
    rw [expSubsetProductB_map hE, ht, Res.ok_bind, Res.ok_bind] at hfin
    rw [foldAll_singleton c.1 bs (by omega) (by rw [hcl]; have := (log2roundUp_le hn2).2; omega),
      rd_ok (by simp), Res.ok_bind] at hfin
    simp only [List.getElem_cons_zero] at hfin
    obtain ⟨xC, exC, hfin⟩ := Res.bind_eq_ok.1 hfin
    obtain ⟨lhs, elhs, hfin⟩ := Res.bind_eq_ok.1 hfin
    rw [hE.sodium.basePoint, hE.mul, Res.ok_bind, hE.mul, Res.ok_bind, hE.add, Res.ok_bind, hE.add,
      Res.ok_bind, Res.ok.injEq, Prod.mk.injEq, decide_eq_true_eq] at hfin
    obtain ⟨hlr, rfl⟩ := hfin
    obtain ⟨c2, hc2, hxC⟩ := h.mul_inv (hs _) hx exC
    have hd1 := hde (pf.r • E.base + (pf.a * foldedSum c.1 bs) • E.fromUniform f.1 + tmp)
    rw [← hlr] at hd1
    obtain ⟨s, b, hs1, hb1, hsum⟩ := h.add_inv elhs hd1
    rw [hxC, h.dec_enc, Option.some_inj] at hb1
    have hd2 : dec C2 = some (ι c2) := by rw [hc2, h.dec_enc]
    obtain ⟨k1, k2, hk1, hk2, hksum⟩ := h.add_inv eC2 hd2
    rw [hde, Option.some_inj] at hk2
    obtain ⟨k3, k4, hk3, hk4, hksum2⟩ := h.add_inv eC1 hk1
    rw [hde, Option.some_inj] at hk4
    refine ⟨rfl, c2 - (mexp (List.take pf.Ls.length c.1) (List.take pf.Ls.length Ls) +
        mexp (List.take pf.Rs.length (List.map (·⁻¹) c.1)) (List.take pf.Rs.length Rs)) -
        eq • E.fromUniform f.1,
      pf.r • E.base + (pf.a * foldedSum c.1 bs) • E.fromUniform f.1 + tmp - E.scalarReduce ch.1 • c2,
      Ls, Rs, ?_, ?_, hLs, hRs, ?_⟩
    · rw [hk3, Option.some_inj, map_sub, map_sub, hk4, ← hksum, ← hksum2, ← hk2, List.length_map, List.length_map, hLl, hRl]
      simp
    · rw [hs1, Option.some_inj, map_sub, ← hsum, hb1]
      simp
    · unfold LinEq
      dsimp only
      rw [← hLl, ← hRl, List.take_length, List.take_length, mexp_take_left _ _ _ le_rfl,
        mexp_take_left _ _ _ le_rfl, htmp]
      have : c2 - (mexp c.1 Ls + mexp (c.1.map (·⁻¹)) Rs) - eq • E.fromUniform f.1 +
          eq • E.fromUniform f.1 + mexp c.1 Ls + mexp (c.1.map (·⁻¹)) Rs = c2 := by
        rw [sub_add_cancel, add_assoc, sub_add_cancel]
      rw [this, sub_add_cancel]
  refine ⟨h0, hx, ?_⟩
  cases off with
  | none =>
    simp only [Res.ok_bind] at acc
    exact hfin none _ (expSubsetProduct_none gs c.1 pf.a hg.symm hn2 hcl.symm) (by simp [offList]) acc
  | some o =>
    have hol := ho o rfl
    dsimp only at acc
    rw [rdN_ok (by omega)] at acc
    simp only [Res.ok_bind] at acc
    refine hfin _ _ (expSubsetProduct_some gs c.1 pf.a _ hg.symm hn2 hcl.symm (by simp; omega)) ?_ acc
    rw [mexp_smul_left, List.take_of_length_le (by omega)]
    simp [offList]

theorem verifyQuadraticB_accepts (h : CurveOk S enc dec ι E.base)
    (hp : E.pointBytes = fun g => enc (ι g))
    (hs : ∀ x, IsScalar (E.scalarBytes x) x) (pf : QuadPfB (ZMod order)) (gs hs' : List G) (n : Nat)
    (eq : ZMod order) (st st' : E.St) (u v : Option (List (ZMod order)))
    (hn1 : 1 ≤ n) (hn2 : n ≤ 2 ^ 63) (hg : gs.length = n) (hh : hs'.length = n)
    (hu : ∀ o, u = some o → o.length = n) (hv : ∀ o, v = some o → o.length = n)
    (acc : verifyQuadraticB E S pf (gs.map E.pointBytes) (hs'.map E.pointBytes) n eq st u v =
      .ok (true, st')) :
    0 ∉ (deriveQuadB E pf n st).xs ∧ st' = (deriveQuadB E pf n st).st ∧
    ∃ (C : G) (Ls Rs : List G) (S1 S2 : G), dec pf.C = some (ι C) ∧
      pf.Ls = Ls.map E.pointBytes ∧ pf.Rs = Rs.map E.pointBytes ∧
      ((deriveQuadB E pf n st).x ≠ 0 → dec pf.S1 = some (ι S1) ∧ pf.S2 = E.pointBytes S2) ∧
      QuadEq E ⟨pf.tag, C, Ls, Rs, S1, S2, pf.a, pf.b, pf.r⟩ gs hs' eq (offList u) (offList v)
        (deriveQuadB E pf n st) := by
  have hE := encOk_of_curve h hp hs
  have hde : ∀ g : G, dec (E.pointBytes g) = some (ι g) := fun g => by rw [hp]; exact h.dec_enc _
  simp only [verifyQuadraticB, Env.newGenerator, lblC, lblF, lblS1, lblS2, lblx, Env.newChallenge] at acc
  simp only [deriveQuadB]
  obtain ⟨f, hf⟩ : ∃ f, f = E.challenge (E.commit st [67] pf.C) [70] 32 := ⟨_, rfl⟩
  simp only [← hf] at acc ⊢
  rw [hE.mul, Res.ok_bind] at acc
  obtain ⟨C1, eC1, acc⟩ := Res.bind_eq_ok.1 acc
  split at acc
  · cases acc
  rename_i hlen
  push Not at hlen
  obtain ⟨hL, hR⟩ := hlen
  rw [verifyQuadLoopB_eq E pf.Ls pf.Rs (log2roundUp n) n _ 0 _ (level_log hn1 hn2) (by omega)
    (by omega)] at acc
  simp only [List.drop_zero] at acc
  obtain ⟨c, hc⟩ : ∃ c, c = foldChallengesB E n f.2 pf.Ls pf.Rs := ⟨_, rfl⟩
  simp only [← hc] at acc ⊢
  have hcl : c.1.length = log2roundUp n := by rw [hc]; simp; omega
  by_cases h0 : (0 : ZMod order) ∈ c.1
  · rw [if_pos h0] at acc
    cases acc
  rw [if_neg h0, Res.ok_bind] at acc
  dsimp only at acc
  obtain ⟨m1, e1, acc⟩ := Res.bind_eq_ok.1 acc
  obtain ⟨m2, e2, acc⟩ := Res.bind_eq_ok.1 acc
  have h0i : (0 : ZMod order) ∉ c.1.map (·⁻¹) := by
    rw [List.mem_map]
    rintro ⟨x, hx, hx0⟩
    rw [inv_eq_zero] at hx0
    exact h0 (hx0 ▸ hx)
  obtain ⟨Ls, hLs⟩ := multiExpB_inv h hs (by omega) h0 e1
  obtain ⟨Rs, hRs⟩ := multiExpB_inv h hs (by simp; omega) h0i e2
  rw [← hp] at hLs hRs
  have hLl : Ls.length = pf.Ls.length := by rw [hLs, List.length_map]
  have hRl : Rs.length = pf.Rs.length := by rw [hRs, List.length_map]
  rw [hLs, multiExpB_ok hE (by simp) (by simp; omega), Res.ok.injEq] at e1
  rw [hRs, multiExpB_ok hE (by simp) (by simp; omega), Res.ok.injEq] at e2
  rw [← e1, ← e2, hE.add, Res.ok_bind] at acc
  obtain ⟨C2, eC2, acc⟩ := Res.bind_eq_ok.1 acc
  obtain ⟨ch, hch⟩ : ∃ ch, ch = E.challenge (E.commit (E.commit c.2 [83, 49] pf.S1) [83, 50] pf.S2)
    [120] 64 := ⟨_, rfl⟩
  simp only [← hch] at acc ⊢
  have hG : expSubsetProduct gs n c.1 pf.a u =
      .ok (pf.a • foldedSum c.1 gs + mexp (offList u) gs) := by
    cases u with
    | none => rw [expSubsetProduct_none gs c.1 pf.a hg.symm hn2 hcl.symm]; simp [offList]
    | some o =>
      rw [expSubsetProduct_some gs c.1 pf.a _ hg.symm hn2 hcl.symm (by have := hu o rfl; omega)]
      simp [offList]
  have hH : expSubsetProduct hs' n (c.1.map (·⁻¹)) pf.b v =
      .ok (pf.b • foldedSum (c.1.map (·⁻¹)) hs' + mexp (offList v) hs') := by
    cases v with
    | none => rw [expSubsetProduct_none hs' _ pf.b hh.symm hn2 (by simp [hcl])]; simp [offList]
    | some o =>
      rw [expSubsetProduct_some hs' _ pf.b _ hh.symm hn2 (by simp [hcl]) (by have := hv o rfl; omega)]
      simp [offList]
  rw [expSubsetProductB_map hE, hG, Res.ok_bind, Res.ok_bind, expSubsetProductB_map hE, hH,
    Res.ok_bind, Res.ok_bind] at acc
  obtain ⟨xS, exS, acc⟩ := Res.bind_eq_ok.1 acc
  obtain ⟨s, es, acc⟩ := Res.bind_eq_ok.1 acc
  obtain ⟨xs, exs, acc⟩ := Res.bind_eq_ok.1 acc
  obtain ⟨lhs, elhs, acc⟩ := Res.bind_eq_ok.1 acc
  rw [hE.sodium.basePoint, hE.mul, Res.ok_bind, hE.add, Res.ok_bind, hE.add, Res.ok_bind, hE.mul,
    Res.ok_bind, hE.add, Res.ok_bind, Res.ok.injEq, Prod.mk.injEq, decide_eq_true_eq] at acc
  obtain ⟨hlr, hst⟩ := acc
  have hd1 := hde (pf.r • E.base + (pf.a • foldedSum c.1 gs + mexp (offList u) gs) +
    (pf.b • foldedSum (c.1.map (·⁻¹)) hs' + mexp (offList v) hs') + (pf.a * pf.b) • E.fromUniform f.1)
  rw [← hlr] at hd1
  obtain ⟨k0, k5, hk0, hk5, hsum⟩ := h.add_inv elhs hd1
  obtain ⟨k1, k2, hk1, hk2, hksum⟩ := h.add_inv eC2 hk0
  rw [hde, Option.some_inj] at hk2
  obtain ⟨k3, k4, hk3, hk4, hksum2⟩ := h.add_inv eC1 hk1
  rw [hde, Option.some_inj] at hk4
  have hS : ∃ S1 S2 : G, k5 = ι (E.scalarReduce ch.1 • S1 + (E.scalarReduce ch.1 * E.scalarReduce ch.1) • S2) ∧
      (E.scalarReduce ch.1 ≠ 0 → dec pf.S1 = some (ι S1) ∧ pf.S2 = E.pointBytes S2) := by
    by_cases hx : E.scalarReduce ch.1 = 0
    · refine ⟨0, 0, ?_, fun hx' => absurd hx hx'⟩
      have hz : isZeroBytes (E.scalarBytes (E.scalarReduce ch.1)) = true :=
        (C59_ring_operations _ _ _ _ (hs _) (hs 0)).2.2.2.2.2.2 hx
      unfold Sodium.ptMul at exs
      rw [if_pos (Or.inr hz), Res.ok.injEq] at exs
      rw [← exs, h.dec_identity, Option.some_inj] at hk5
      rw [← hk5, smul_zero, smul_zero, add_zero, map_zero]
    · obtain ⟨S2, hS2, hxS⟩ := h.mul_inv (hs _) hx exS
      obtain ⟨g, hgs, hxs⟩ := h.mul_inv (hs _) hx exs
      have hds : dec s = some (ι g) := by rw [hgs, h.dec_enc]
      obtain ⟨t1, t2, ht1, ht2, htsum⟩ := h.add_inv es hds
      rw [hxS, h.dec_enc, Option.some_inj] at ht2
      rw [hxs, h.dec_enc, Option.some_inj] at hk5
      refine ⟨g - E.scalarReduce ch.1 • S2, S2, ?_, fun _ => ⟨?_, by rw [hS2, hp]⟩⟩
      · rw [← hk5, smul_sub, smul_smul, sub_add_cancel]
      · rw [ht1, Option.some_inj, map_sub, ← htsum, ht2, add_sub_cancel_right]
  obtain ⟨S1, S2, hk5', hS12⟩ := hS
  refine ⟨h0, hst.symm, pf.r • E.base + (pf.a • foldedSum c.1 gs + mexp (offList u) gs) +
    (pf.b • foldedSum (c.1.map (·⁻¹)) hs' + mexp (offList v) hs') + (pf.a * pf.b) • E.fromUniform f.1 -
    (E.scalarReduce ch.1 • S1 + (E.scalarReduce ch.1 * E.scalarReduce ch.1) • S2) -
    (mexp c.1 Ls + mexp (c.1.map (·⁻¹)) Rs) - eq • E.fromUniform f.1, Ls, Rs, S1, S2, ?_, hLs, hRs,
    hS12, ?_⟩
  · rw [hk3, Option.some_inj, map_sub, map_sub, map_sub, ← hk5', ← hsum, hk4, ← hksum, ← hksum2, ← hk2,
      List.length_map, List.length_map, List.take_length, List.take_length,
      mexp_take_left _ _ _ le_rfl, mexp_take_left _ _ _ le_rfl]
    simp
  · unfold QuadEq
    dsimp only
    rw [sub_add_cancel, add_assoc (_ - _) (mexp c.1 Ls), sub_add_cancel, add_assoc (_ - _), sub_add_cancel]

/-! ### No undefined behaviour -/

theorem Res.bind_ne_ub {α β : Type} {r : Res α} {f : α → Res β} (h1 : r ≠ .ub)
    (h2 : ∀ v, r = .ok v → f v ≠ .ub) : (r >>= f) ≠ .ub := by
  cases r with
  | ok v => exact h2 v rfl
  | throw => intro h; cases h
  | ub => exact absurd rfl h1

theorem ptAdd_ne_ub (p q : Bytes) : S.ptAdd p q ≠ .ub := by
  unfold Sodium.ptAdd
  split
  · simp
  · split
    · simp
    · split <;> simp

theorem ptMul_ne_ub (p n : Bytes) : S.ptMul p n ≠ .ub := by
  unfold Sodium.ptMul
  split
  · simp
  · split <;> simp

theorem sumMul_ne_ub : ∀ (ns ps : List Bytes) (acc : Bytes), S.sumMul ns ps acc ≠ .ub := by
  intro ns
  induction ns with
  | nil => intro ps acc; simp [Sodium.sumMul]
  | cons n ns ih =>
    intro ps acc
    cases ps with
    | nil => simp [Sodium.sumMul]
    | cons p ps =>
      rw [Sodium.sumMul]
      exact Res.bind_ne_ub (ptMul_ne_ub _ _) fun _ _ =>
        Res.bind_ne_ub (ptAdd_ne_ub _ _) fun _ _ => ih _ _

theorem multiExpB_ne_ub {ps : List Bytes} {n : Nat} {xs : List (ZMod order)} (h1 : n ≤ ps.length)
    (h2 : n ≤ xs.length) : multiExpB E S ps n xs ≠ .ub := by
  unfold multiExpB
  rw [rdN_ok h1, rdN_ok h2, Res.ok_bind, Res.ok_bind]
  exact sumMul_ne_ub _ _ _

theorem expSubsetProductB_ne_ub {ps : List Bytes} {n : Nat} {xs : List (ZMod order)} {a : ZMod order}
    {off : Option (List (ZMod order))} (hn1 : 1 ≤ n) (hn2 : n ≤ 2 ^ 63) (hps : n ≤ ps.length)
    (hx : log2roundUp n = xs.length) (ho : ∀ o, off = some o → n ≤ o.length) :
    expSubsetProductB E S ps n xs a off ≠ .ub := by
  unfold expSubsetProductB
  have hle := (log2roundUp_le hn2).2
  dsimp only
  rw [subsetProduct_eq _ _ _ _ (by omega) hn2 hle, Res.ok_bind]
  cases off with
  | none => exact multiExpB_ne_ub hps (by simp [← hx]; exact hle)
  | some o =>
    dsimp only
    rw [rdN_ok (ho o rfl), Res.ok_bind]
    exact multiExpB_ne_ub hps (by simp [← hx]; exact hle)

theorem verifyLinearB_ne_ub (pf : LinPfB (ZMod order)) (bs : List (ZMod order)) (gs : List Bytes)
    (n : Nat) (eq : ZMod order) (st : E.St) (off : Option (List (ZMod order)))
    (hn1 : 1 ≤ n) (hn2 : n ≤ 2 ^ 63) (hb : bs.length = n) (hg : n ≤ gs.length)
    (ho : ∀ o, off = some o → n ≤ o.length) :
    verifyLinearB E S pf bs gs n eq st off ≠ .ub := by
  unfold verifyLinearB
  dsimp only
  refine Res.bind_ne_ub (ptMul_ne_ub _ _) fun f _ => Res.bind_ne_ub (ptAdd_ne_ub _ _) fun C _ => ?_
  split
  · simp
  rename_i hlen
  push Not at hlen
  obtain ⟨hL, hR⟩ := hlen
  rw [verifyLinLoopB_eq E pf.Ls pf.Rs (log2roundUp n) n _ 0 bs _ (level_log hn1 hn2) hb (by omega)
    (by omega)]
  simp only [List.drop_zero]
  generalize hc : foldChallengesB E n _ pf.Ls pf.Rs = c
  have hcl : c.1.length = log2roundUp n := by rw [← hc]; simp; omega
  split
  · intro hu; cases hu
  rw [Res.ok_bind]
  dsimp only
  refine Res.bind_ne_ub (multiExpB_ne_ub le_rfl (by omega)) fun m1 _ => ?_
  refine Res.bind_ne_ub (multiExpB_ne_ub le_rfl (by simp; omega)) fun m2 _ => ?_
  refine Res.bind_ne_ub (ptAdd_ne_ub _ _) fun m _ => Res.bind_ne_ub (ptAdd_ne_ub _ _) fun C2 _ => ?_
  refine Res.bind_ne_ub (by unfold inverseOf; split <;> simp) fun xi _ => ?_
  have hle := (log2roundUp_le hn2).2
  refine Res.bind_ne_ub ?_ fun off' hoff => ?_
  · cases off with
    | none => simp
    | some w => dsimp only; rw [rdN_ok (ho w rfl)]; simp
  · refine Res.bind_ne_ub (expSubsetProductB_ne_ub hn1 hn2 hg hcl.symm ?_) fun tmp _ => ?_
    · intro o hoo
      subst hoo
      cases off with
      | none => simp at hoff
      | some w =>
        dsimp only at hoff
        rw [rdN_ok (ho w rfl), Res.ok_bind] at hoff
        simp only [Res.ok.injEq, Option.some.injEq] at hoff
        subst hoff
        have := ho w rfl
        simp
        omega
    · rw [foldAll_singleton c.1 bs (by omega) (by rw [hcl]; omega), rd_ok (by simp), Res.ok_bind]
      refine Res.bind_ne_ub (ptMul_ne_ub _ _) fun _ _ => Res.bind_ne_ub (ptAdd_ne_ub _ _) fun _ _ => ?_
      refine Res.bind_ne_ub (ptMul_ne_ub _ _) fun _ _ => Res.bind_ne_ub (ptMul_ne_ub _ _) fun _ _ => ?_
      refine Res.bind_ne_ub (ptAdd_ne_ub _ _) fun _ _ => Res.bind_ne_ub (ptAdd_ne_ub _ _) fun _ _ => ?_
      simp

theorem verifyQuadraticB_ne_ub (pf : QuadPfB (ZMod order)) (gs hs : List Bytes)
    (n : Nat) (eq : ZMod order) (st : E.St) (u v : Option (List (ZMod order)))
    (hn1 : 1 ≤ n) (hn2 : n ≤ 2 ^ 63) (hg : n ≤ gs.length) (hh : n ≤ hs.length)
    (hu : ∀ o, u = some o → n ≤ o.length) (hv : ∀ o, v = some o → n ≤ o.length) :
    verifyQuadraticB E S pf gs hs n eq st u v ≠ .ub := by
  unfold verifyQuadraticB
  dsimp only
  refine Res.bind_ne_ub (ptMul_ne_ub _ _) fun f _ => Res.bind_ne_ub (ptAdd_ne_ub _ _) fun C _ => ?_
  split
  · simp
  rename_i hlen
  push Not at hlen
  obtain ⟨hL, hR⟩ := hlen
  rw [verifyQuadLoopB_eq E pf.Ls pf.Rs (log2roundUp n) n _ 0 _ (level_log hn1 hn2) (by omega)
    (by omega)]
  simp only [List.drop_zero]
  generalize hc : foldChallengesB E n _ pf.Ls pf.Rs = c
  have hcl : c.1.length = log2roundUp n := by rw [← hc]; simp; omega
  split
  · intro hu; cases hu
  rw [Res.ok_bind]
  dsimp only
  refine Res.bind_ne_ub (multiExpB_ne_ub le_rfl (by omega)) fun m1 _ => ?_
  refine Res.bind_ne_ub (multiExpB_ne_ub le_rfl (by simp; omega)) fun m2 _ => ?_
  refine Res.bind_ne_ub (ptAdd_ne_ub _ _) fun m _ => Res.bind_ne_ub (ptAdd_ne_ub _ _) fun C2 _ => ?_
  refine Res.bind_ne_ub (expSubsetProductB_ne_ub hn1 hn2 hg hcl.symm hu) fun tG _ => ?_
  refine Res.bind_ne_ub (expSubsetProductB_ne_ub hn1 hn2 hh (by simp [hcl]) hv) fun tH _ => ?_
  refine Res.bind_ne_ub (ptMul_ne_ub _ _) fun _ _ => Res.bind_ne_ub (ptAdd_ne_ub _ _) fun _ _ => ?_
  refine Res.bind_ne_ub (ptMul_ne_ub _ _) fun _ _ => Res.bind_ne_ub (ptAdd_ne_ub _ _) fun _ _ => ?_
  refine Res.bind_ne_ub (ptMul_ne_ub _ _) fun _ _ => Res.bind_ne_ub (ptAdd_ne_ub _ _) fun _ _ => ?_
  refine Res.bind_ne_ub (ptAdd_ne_ub _ _) fun _ _ => Res.bind_ne_ub (ptMul_ne_ub _ _) fun _ _ => ?_
  refine Res.bind_ne_ub (ptAdd_ne_ub _ _) fun _ _ => ?_
  simp

end

end Verif
